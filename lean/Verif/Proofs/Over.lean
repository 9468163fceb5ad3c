import Verif.Proofs.Stable
/-!
# Lines above tables

A container in which lines come first and tables behind them. What is appended behind does not see the lines, as long as the names differ.
-/
namespace Tomlkit
open _root_.Spec Tomlkit.Spec

/-- `d` is `c` followed by `t` -/
structure Over (c t d : Cont) : Prop where
  body : d.body = c.body ++ t.body
  line : ∀ k is, mapGet k c.map = some is → mapGet k d.map = some is ∧ mapGet k t.map = none
  below : ∀ k, mapGet k c.map = none → mapGet k d.map = (mapGet k t.map).map (List.map (· + c.body.length))
  dict : ∀ k, k ∈ d.dict ↔ k ∈ c.dict ∨ k ∈ t.dict
  parsed : d.parsed = t.parsed
  keys : d.tableKeys = t.tableKeys

theorem Over.start {c : Cont} (h : c.tableKeys = []) : Over c (.empty c.parsed) c where
  body := (List.append_nil _).symm
  line := fun k is hk => ⟨hk, rfl⟩
  below := fun k hk => by rw [hk]; rfl
  dict := fun k => ⟨.inl, fun h => h.elim id (fun h => by cases h)⟩
  parsed := rfl
  keys := h

theorem over_at (a b : List Entry) (i : Nat) : (a ++ b)[i + a.length]? = b[i]? := by
  rw [List.getElem?_append_right (by omega)]
  congr 1
  omega

theorem over_set (a b : List Entry) (i : Nat) (e : Entry) : (a ++ b).set (i + a.length) e = a ++ b.set i e := by
  rw [List.set_append_right _ _ (by omega)]
  congr 2
  omega

theorem over_null (a : List Entry) (is : List Nat) : ∀ b, nullAt (is.map (· + a.length)) (a ++ b) = a ++ nullAt is b := by
  unfold nullAt
  induction is with
  | nil => intro b; rfl
  | cons i is ih => intro b; rw [List.map_cons, List.foldl_cons, List.foldl_cons, over_set, ih]

theorem over_tables (a b : List Entry) (is : List Nat) : tablesAt (a ++ b) (is.map (· + a.length)) = tablesAt b is := by
  unfold tablesAt
  rw [List.filterMap_map]
  congr 1
  funext i
  simp only [Function.comp, over_at]

variable {c t d : Cont}

theorem Over.proxy (h : Over c t d) (n : Nat) (is : List Nat) : Cont.mkProxy n d (is.map (· + c.body.length)) = Cont.mkProxy n t is := by
  cases n with
  | zero => rw [Cont.mkProxy, Cont.mkProxy]
  | succ n => rw [Cont.mkProxy, Cont.mkProxy, h.body, over_tables]

theorem Over.has (h : Over c t d) (n : Nat) {k : Str} (hk : mapGet k c.map = none) : Cont.has n d k = Cont.has n t k := by
  cases n with
  | zero => rw [Cont.has, Cont.has]
  | succ n =>
    rw [Cont.has, Cont.has, h.below k hk]
    rcases mapGet k t.map with _ | is
    · rfl
    · simp only [Option.map_some]
      rcases is with _ | ⟨i, _ | ⟨j, r⟩⟩
      · show (Cont.mkProxy n d []).map _ = (Cont.mkProxy n t []).map _
        rw [show ([] : List Nat) = [].map (· + c.body.length) from rfl, h.proxy]; rfl
      · rfl
      · show (Cont.mkProxy n d ((i :: j :: r).map (· + c.body.length))).map _ = (Cont.mkProxy n t (i :: j :: r)).map _
        rw [h.proxy]

theorem Over.last (h : Over c t d) {k : Str} (hk : mapGet k c.map = none) : d.lastEntry k = (t.lastEntry k).map fun p => (p.1 + c.body.length, p.2) := by
  unfold Cont.lastEntry
  rw [h.below k hk, h.body]
  rcases mapGet k t.map with _ | is
  · rfl
  · simp only [Option.map_some, List.getLast?_map]
    rcases is.getLast? with _ | i
    · rfl
    · simp only [Option.map_some, over_at]
      rcases t.body[i]? with _ | e <;> rfl

/-- an entry behind the lines is replaced -/
theorem Over.set (h : Over c t d) (i : Nat) (e : Entry) : Over c (.mk (t.body.set i e) t.map t.dict t.parsed t.tableKeys)
    (.mk (d.body.set (i + c.body.length) e) d.map d.dict d.parsed d.tableKeys) where
  body := by simp only [Cont.body_mk]; rw [h.body, over_set]
  line := h.line
  below := h.below
  dict := h.dict
  parsed := h.parsed
  keys := h.keys

/-- the same failure, or related results -/
def OverR (c : Cont) (x y : Except Err Cont) : Prop := (∃ e, x = .error e ∧ y = .error e) ∨ ∃ t d, x = .ok t ∧ y = .ok d ∧ Over c t d
@[inherit_doc OverR]
def OverP (c : Cont) (x y : Except Err (Cont × Bool)) : Prop := (∃ e, x = .error e ∧ y = .error e) ∨ ∃ t d b, x = .ok (t, b) ∧ y = .ok (d, b) ∧ Over c t d

theorem OverR.pair {x y : Except Err Cont} (h : OverR c x y) (b : Bool) : OverP c (x.map fun z => (z, b)) (y.map fun z => (z, b)) := by
  rcases h with ⟨e, rfl, rfl⟩ | ⟨t, d, rfl, rfl, h⟩
  · exact .inl ⟨e, rfl, rfl⟩
  · exact .inr ⟨t, d, b, rfl, rfl, h⟩

theorem Over.raw (h : Over c t d) (key : Option SKey) (hk : ∀ k, key = some k → mapGet k.key c.map = none) (v : Item) :
    OverR c (t.rawAppend key v) (d.rawAppend key v) := by
  rcases key with _ | k
  · refine .inr ⟨_, _, rfl, rfl, ⟨?_, h.line, h.below, h.dict, h.parsed, h.keys⟩⟩
    simp only [Cont.body_mk]
    rw [h.body, List.append_assoc]
  · have hk := hk k rfl
    have hlen : d.body.length = t.body.length + c.body.length := by rw [h.body, List.length_append, Nat.add_comm]
    have key : ∀ is : List Nat, (∀ j, j ∈ is → True) → Over c
        (.mk (t.body ++ [.mk (some k) v]) (mapSet k.key (is ++ [t.body.length]) t.map) (dictSet k.key t.dict) t.parsed
          (if v.isTable then t.tableKeys ++ [k.key] else t.tableKeys))
        (.mk (d.body ++ [.mk (some k) v]) (mapSet k.key (is.map (· + c.body.length) ++ [d.body.length]) d.map) (dictSet k.key d.dict) d.parsed
          (if v.isTable then d.tableKeys ++ [k.key] else d.tableKeys)) := by
      intro is _
      refine ⟨?_, fun x xs hx => ?_, fun x hx => ?_, fun x => ?_, h.parsed, ?_⟩
      · simp only [Cont.body_mk]; rw [h.body, List.append_assoc]
      · have hne : ¬ k.key = x := by intro he; rw [he, hx] at hk; cases hk
        simp only [Cont.map_mk, mapGet_mapSet, if_neg hne]
        exact h.line x xs hx
      · simp only [Cont.map_mk, mapGet_mapSet]
        split
        · simp only [Option.map_some, List.map_append, List.map_cons, List.map_nil, hlen]
        · exact h.below x hx
      · simp only [Cont.dict_mk, mem_dictSet, h.dict x]
        constructor
        · rintro (h | h | h)
          · exact .inr (.inl h)
          · exact .inl h
          · exact .inr (.inr h)
        · rintro (h | h | h)
          · exact .inr (.inl h)
          · exact .inl h
          · exact .inr (.inr h)
      · simp only [Cont.tableKeys_mk, h.keys]
    unfold Cont.rawAppend
    simp only
    rw [h.below k.key hk]
    rcases hm : mapGet k.key t.map with _ | is
    · exact .inr ⟨_, _, rfl, rfl, key [] (fun _ _ => trivial)⟩
    · simp only [Option.map_some, List.getLast?_map]
      rcases hg : is.getLast? with _ | i
      · exact .inl ⟨_, rfl, rfl⟩
      · simp only [Option.map_some]
        have he : (some (i + c.body.length) >>= fun i => d.body[i]?) = (some i >>= fun i => t.body[i]?) := by
          show d.body[i + c.body.length]? = t.body[i]?
          rw [h.body, over_at]
        rw [he]
        rcases (some i >>= fun i => t.body[i]?) with _ | e
        · exact .inl ⟨_, rfl, rfl⟩
        · simp only
          split
          · exact .inr ⟨_, _, rfl, rfl, key is (fun _ _ => trivial)⟩
          · exact .inl ⟨_, rfl, rfl⟩

theorem Over.tail (h : Over c t d) (hp : t.parsed = true) (key : Option SKey) (hk : ∀ k, key = some k → mapGet k.key c.map = none) (v : Item) :
    OverR c (t.appendTail key v) (d.appendTail key v) := by
  have hr : ∀ z : Cont, z.parsed = true → z.appendTail key v = z.rawAppend key v := by
    intro z hz
    unfold Cont.appendTail
    rcases key with _ | k
    · rfl
    · simp only [hz, Bool.not_true, Bool.and_false, Bool.false_and, Bool.false_eq_true, if_false]
  rw [hr t hp, hr d (h.parsed.trans hp)]
  exact h.raw key hk v

theorem prepare_same {a b : Cont} (ha : a.parsed = true) (hb : b.parsed = true) (key : Option SKey) (v : Item) : a.prepare key v = b.prepare key v := by
  unfold Cont.prepare
  rw [ha, hb]
  simp

/-- what is appended behind the lines -/
theorem Over.append1 (h : Over c t d) (hp : t.parsed = true) (n : Nat) (val : Bool) (key : Option SKey)
    (hk : ∀ k, key = some k → mapGet k.key c.map = none) (v : Item) :
    OverP c (Cont.append1 n false val t key v) (Cont.append1 n false val d key v) := by
  rcases n with _ | n
  · rw [Cont.append1, Cont.append1]; exact .inl ⟨_, rfl, rfl⟩
  have hpd : d.parsed = true := h.parsed.trans hp
  rw [Cont.append1, Cont.append1, prepare_same hpd hp]
  simp only [Bool.false_and, Bool.false_eq_true, if_false]
  rcases t.prepare key v with e | w
  · exact .inl ⟨_, rfl, rfl⟩
  simp only
  rcases key with _ | k
  · exact (h.tail hp none (by intro k hk; cases hk) w).pair false
  have hk0 := hk k rfl
  simp only
  rw [h.has n hk0]
  rcases Cont.has n t k.key with e | b
  · exact .inl ⟨_, rfl, rfl⟩
  rcases b with _ | _
  · exact (h.tail hp _ hk w).pair false
  simp only
  rw [h.last hk0]
  rcases t.lastEntry k.key with _ | ⟨i, cur⟩
  · exact .inl ⟨_, rfl, rfl⟩
  simp only [Option.map_some]
  have hlen : d.body.length = t.body.length + c.body.length := by rw [h.body, List.length_append, Nat.add_comm]
  have hmv : (i + c.body.length + 1 != d.body.length) = (i + 1 != t.body.length) := by
    rw [hlen]
    rw [Bool.eq_iff_iff]
    simp only [bne_iff_ne, ne_eq]
    omega
  rw [hmv]
  rcases w with _ | _ | _ | _ | _ | _ | _ | _ | _ | _ | _ | tb | ⟨ts, tr, nm, p⟩ | _ <;> try exact .inl ⟨_, rfl, rfl⟩
  · simp only
    split
    · exact .inl ⟨_, rfl, rfl⟩
    split
    · rcases cur.v with _ | _ | _ | _ | _ | _ | _ | _ | _ | _ | _ | ct | ⟨ts', t', n', p'⟩ | _ <;> try exact .inl ⟨_, rfl, rfl⟩
      · refine OverR.pair ?_ true
        unfold Cont.replaceByAoT
        rw [h.below k.key hk0, h.parsed]
        rcases hm : mapGet k.key t.map with _ | is
        · exact .inl ⟨_, rfl, rfl⟩
        rcases is with _ | ⟨j, r⟩
        · exact .inl ⟨_, rfl, rfl⟩
        refine .inr ⟨_, _, rfl, rfl, ?_, fun x xs hx => ?_, fun x hx => ?_, h.dict, rfl, h.keys⟩
        · simp only [Cont.body_mk]
          rw [h.body]
          show (nullAt (r.map (· + c.body.length)) (c.body ++ t.body)).set (j + c.body.length) _ = _
          rw [over_null, over_set]
        · have hne : ¬ k.key = x := by intro he; rw [he, hx] at hk0; cases hk0
          simp only [Cont.map_mk, mapGet_mapSet, mapGet_mapDel, if_neg hne]
          exact h.line x xs hx
        · simp only [Cont.map_mk, mapGet_mapSet, mapGet_mapDel]
          split
          · rfl
          · exact h.below x hx
      · exact .inr ⟨_, _, _, rfl, rfl, h.set i _⟩
    · rcases cur.v with _ | _ | _ | _ | _ | _ | _ | _ | _ | _ | _ | ct | ⟨ts', t', n', p'⟩ | _ <;> try exact .inl ⟨_, rfl, rfl⟩
      simp only
      split
      · split
        · rw [h.keys]
          generalize (if (k.dotted || isDottedKey cur.key) = true then some true else _) = z
          rcases z with _ | _ | _
          · exact .inl ⟨_, rfl, rfl⟩
          · simp only
            generalize foldE _ (ct.deepCopy, false) tb.cont.body = z
            rcases z with e | ⟨ct', mv⟩
            · exact .inl ⟨_, rfl, rfl⟩
            · refine .inr ⟨_, _, _, rfl, rfl, ?_⟩
              have := h.set i (.mk cur.key (.table ct'))
              rw [h.keys] at this
              exact this
          · simp only [hpd, hp, Bool.not_true, Bool.and_false, Bool.false_eq_true, if_false, Nat.lt_irrefl, decide_false]
            rcases h.raw (some k) hk (.table tb) with ⟨e, h1, h2⟩ | ⟨t1, d1, h1, h2, h3⟩ <;> rw [h1, h2]
            · exact .inl ⟨_, rfl, rfl⟩
            · simp only
              rcases val with _ | _
              · exact .inr ⟨_, _, _, rfl, rfl, h3⟩
              · simp only [if_true]
                rw [h3.has n hk0]
                rcases Cont.has n t1 k.key with e | b
                · exact .inl ⟨_, rfl, rfl⟩
                · exact .inr ⟨_, _, _, rfl, rfl, h3⟩
        · split
          · exact .inl ⟨_, rfl, rfl⟩
          · exact (h.tail hp _ hk _).pair false
      · split
        · exact .inl ⟨_, rfl, rfl⟩
        · exact (h.tail hp _ hk _).pair false
  · simp only
    rcases cur.v with _ | _ | _ | _ | _ | _ | _ | _ | _ | _ | _ | ct | ⟨ts', t', n', p'⟩ | _ <;> try exact .inl ⟨_, rfl, rfl⟩
    exact .inr ⟨_, _, _, rfl, rfl, h.set i _⟩

end Tomlkit
