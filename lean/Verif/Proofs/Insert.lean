import Verif.Proofs.Replace
/-!
# Where a new key is written, and paths in general
-/
namespace Tomlkit
open Spec

/-- an operation at the end of a path raises as it does there -/
theorem atPath_ends {op : Op} (path : List Step) : ∀ {h h' : Holder} {c c' : Cont}, ends path h c = some (h', c') →
    (∀ e, op.run h' c' = .error e → Cont.atPath op path h c = .error e) ∧
    (∀ c1, op.run h' c' = .ok c1 → ∃ c2, Cont.atPath op path h c = .ok c2 ∧ ends path h c2 = some (h', c1)) := by
  induction path with
  | nil =>
    intro h h' c c' hi
    cases hi
    exact ⟨fun e h => h, fun ci h => ⟨ci, h, rfl⟩⟩
  | cons s r ih =>
    intro h h' c c' hi
    rcases s with k | ⟨k, j⟩ <;> unfold Cont.atPath <;> unfold ends at hi
    · rcases hm : mapGet k c.map with _ | is
      · rw [hm] at hi; cases hi
      rcases is with _ | ⟨i, _ | ⟨_, _⟩⟩ <;> rw [hm] at hi <;> try (cases hi; done)
      dsimp only at hi ⊢
      rcases hb : c.body[i]? with _ | ⟨sk, w⟩ <;> rw [hb] at hi <;> try dsimp only at hi ⊢
      · cases hi
      have hlt := (List.getElem?_eq_some_iff.1 hb).1
      rcases w with _ | _ | _ | _ | _ | _ | _ | _ | _ | _ | ⟨ci, t, new⟩ | tb | ⟨ts, t, nm, p⟩ | _ <;> dsimp only at hi ⊢ <;>
        try (cases hi; done)
      · obtain ⟨h1, h2⟩ := ih hi
        refine ⟨fun e he => by rw [h1 e he]; rfl, fun c1 he => ?_⟩
        obtain ⟨c2, h3, h4⟩ := h2 c1 he
        rw [h3]
        refine ⟨_, rfl, ?_⟩
        unfold ends
        rw [Cont.map_mk, hm]
        dsimp only
        rw [Cont.body_mk, List.getElem?_set, if_pos rfl, if_pos hlt]
        exact h4
      · obtain ⟨h1, h2⟩ := ih hi
        refine ⟨fun e he => by rw [h1 e he]; rfl, fun c1 he => ?_⟩
        obtain ⟨c2, h3, h4⟩ := h2 c1 he
        rw [h3]
        refine ⟨_, rfl, ?_⟩
        unfold ends
        rw [Cont.map_mk, hm]
        dsimp only
        rw [Cont.body_mk, List.getElem?_set, if_pos rfl, if_pos hlt]
        dsimp only
        rw [(setCont_fields tb c2).1, (setCont_fields tb c2).2.1]
        exact h4
    · rcases hm : mapGet k c.map with _ | is
      · rw [hm] at hi; cases hi
      rcases is with _ | ⟨i, _ | ⟨_, _⟩⟩ <;> rw [hm] at hi <;> try (cases hi; done)
      dsimp only at hi ⊢
      rcases hb : c.body[i]? with _ | ⟨sk, w⟩ <;> rw [hb] at hi <;> try dsimp only at hi ⊢
      · cases hi
      have hlt := (List.getElem?_eq_some_iff.1 hb).1
      rcases w with _ | _ | _ | _ | _ | _ | _ | _ | _ | _ | ⟨ci, t, new⟩ | tb | ⟨ts, t, nm, p⟩ | _ <;> dsimp only at hi ⊢ <;>
        try (cases hi; done)
      rcases hj : ts[j]? with _ | tb <;> rw [hj] at hi <;> try dsimp only at hi ⊢
      · cases hi
      have hjl := (List.getElem?_eq_some_iff.1 hj).1
      obtain ⟨h1, h2⟩ := ih hi
      refine ⟨fun e he => by rw [h1 e he]; rfl, fun c1 he => ?_⟩
      obtain ⟨c2, h3, h4⟩ := h2 c1 he
      rw [h3]
      refine ⟨_, rfl, ?_⟩
      unfold ends
      rw [Cont.map_mk, hm]
      dsimp only
      rw [Cont.body_mk, List.getElem?_set, if_pos rfl, if_pos hlt]
      dsimp only
      rw [List.getElem?_set, if_pos rfl, if_pos hjl]
      dsimp only
      rw [(setCont_fields tb c2).1, (setCont_fields tb c2).2.1]
      exact h4

theorem ends_good (path : List Step) : ∀ {h h' : Holder} {c c' : Cont}, c.Good Cont.WF → ends path h c = some (h', c') →
    c'.Good Cont.WF := by
  induction path with
  | nil => intro h h' c c' hg hi; cases hi; exact hg
  | cons s r ih =>
    intro h h' c c' hg hi
    rcases s with k | ⟨k, j⟩ <;> unfold ends at hi
    · rcases hm : mapGet k c.map with _ | is
      · rw [hm] at hi; cases hi
      rcases is with _ | ⟨i, _ | ⟨_, _⟩⟩ <;> rw [hm] at hi <;> try (cases hi; done)
      dsimp only at hi
      rcases hb : c.body[i]? with _ | ⟨sk, w⟩ <;> rw [hb] at hi <;> try dsimp only at hi
      · cases hi
      have hgt := good_at hg hb
      rcases w with _ | _ | _ | _ | _ | _ | _ | _ | _ | _ | ⟨ci, t, new⟩ | tb | ⟨ts, t, nm, p⟩ | _ <;> dsimp only at hi <;>
        try (cases hi; done)
      · exact ih ((Item.good_inline _ _ _).1 hgt) hi
      · exact ih ((Tbl.good_iff _).1 hgt) hi
    · rcases hm : mapGet k c.map with _ | is
      · rw [hm] at hi; cases hi
      rcases is with _ | ⟨i, _ | ⟨_, _⟩⟩ <;> rw [hm] at hi <;> try (cases hi; done)
      dsimp only at hi
      rcases hb : c.body[i]? with _ | ⟨sk, w⟩ <;> rw [hb] at hi <;> try dsimp only at hi
      · cases hi
      have hgt := good_at hg hb
      rcases w with _ | _ | _ | _ | _ | _ | _ | _ | _ | _ | ⟨ci, t, new⟩ | tb | ⟨ts, t, nm, p⟩ | _ <;> dsimp only at hi <;>
        try (cases hi; done)
      rcases hj : ts[j]? with _ | tb <;> rw [hj] at hi <;> try dsimp only at hi
      · cases hi
      exact ih ((Tbl.good_iff _).1 ((Item.good_aot _ _ _ _).1 hgt tb (List.mem_of_getElem? hj))) hi

theorem prepare_table (c : Cont) (k : SKey) (tb : Tbl) : ∃ tb', c.prepare (some k) (.table tb) = .ok (.table tb') := by
  unfold Cont.prepare
  have hx : ∃ tb', (if (Item.table tb).isTableLike && (Item.table tb).name?.isNone then
      (some k).map fun k => (Item.table tb).setName k.key else some (.table tb)) = some (.table tb') := by
    cases tb
    split <;> exact ⟨_, rfl⟩
  obtain ⟨tb', hx⟩ := hx
  rw [hx]
  dsimp only
  generalize (if c.parsed = true then tb' else tb'.invalidate) = tb2
  split <;> exact ⟨_, rfl⟩

theorem prepare_aot (c : Cont) (k : SKey) (ts : List Tbl) (t : Trivia) (nm : Option Str) (p : Bool) :
    ∃ ts' t' n' p', c.prepare (some k) (.aot ts t nm p) = .ok (.aot ts' t' n' p') := by
  unfold Cont.prepare
  have hx : ∃ n', (if (Item.aot ts t nm p).isTableLike && (Item.aot ts t nm p).name?.isNone then
      (some k).map fun k => (Item.aot ts t nm p).setName k.key else some (.aot ts t nm p)) = some (.aot ts t n' p) := by
    split <;> exact ⟨_, rfl⟩
  obtain ⟨n', hx⟩ := hx
  rw [hx]
  dsimp only
  split
  · split
    · exact ⟨_, _, _, _, rfl⟩
    · split <;> exact ⟨_, _, _, _, rfl⟩
  · exact ⟨_, _, _, _, rfl⟩

theorem prepare_kind {c : Cont} {k : SKey} {v : Item} : ∃ w, c.prepare (some k) v = .ok w ∧ w.isTable = v.isTable ∧
    w.isAoT = v.isAoT := by
  rcases v with _ | _ | _ | _ | _ | _ | _ | _ | _ | _ | _ | tb | ⟨ts, t, nm, p⟩ | _ <;>
    try exact ⟨_, rfl, rfl, rfl⟩
  · obtain ⟨tb', h⟩ := prepare_table c k tb
    exact ⟨_, h, rfl, rfl⟩
  · obtain ⟨_, _, _, _, h⟩ := prepare_aot c k ts t nm p
    exact ⟨_, h, rfl, rfl⟩

/-- appending a key that holds a value is refused, whatever the new value is -/
theorem append_present {c : Cont} {validate : Bool} {k : SKey} {v : Item} {i : Nat} (hk : mapGet k.key c.map = some [i])
    {key : Option SKey} {old : Item} (hb : c.body[i]? = some (.mk key old)) (ho : old.isTableLike = false) :
    Cont.append validate c (some (.single k)) v = .error .keyAlreadyPresent := by
  obtain ⟨w, hw, h1, h2⟩ := prepare_kind (c := c) (k := k) (v := v)
  unfold Cont.append fuelFor
  simp only [Key.parts]
  rw [Cont.append1]
  simp only [Bool.false_and, Bool.false_eq_true, if_false]
  rw [hw]
  dsimp only
  rw [has_single hk]
  dsimp only
  have hl : c.lastEntry k.key = some (i, .mk key old) := by
    unfold Cont.lastEntry
    rw [hk]
    simp [hb]
  rw [hl]
  rcases w with _ | _ | _ | _ | _ | _ | _ | _ | _ | _ | _ | ⟨c, t, a, s, n, d⟩ | ⟨ts, t, nm, p⟩ | _ <;> try rfl
  · simp [ho]
  · rcases old with _ | _ | _ | _ | _ | _ | _ | _ | _ | _ | _ | ⟨c, t, a, s, n, d⟩ | ⟨ts, t, nm, p⟩ | _ <;>
      first | rfl | (simp [Item.isTableLike, Item.isTable, Item.isAoT] at ho)

/-- so does the append of every kind of holder -/
theorem run_append_present {h : Holder} {c : Cont} {k : Str} {v : Item} {i : Nat} (hk : mapGet k c.map = some [i])
    {key : Option SKey} {old : Item} (hb : c.body[i]? = some (.mk key old)) (ho : old.isTableLike = false) :
    (Op.append k v).run h c = .error .keyAlreadyPresent := by
  have hk' : mapGet (mkKey k).key c.map = some [i] := by rw [mkKey_key]; exact hk
  rcases h with _ | t | ⟨t, new⟩
  · show (Cont.append true c (some (.single (mkKey k))) v).map Prod.fst = _
    rw [append_present hk' hb ho]; rfl
  · show tableAppendStr t c k v = _
    unfold tableAppendStr
    rw [append_present hk' hb ho]
  · show inlineAppend new c (some (mkKey k)) v = _
    unfold inlineAppend
    dsimp only
    rw [Option.map_some, append_present hk' hb ho]; rfl

/-! ## C17 -/

theorem lastBeforeTable_spec (es : List Entry) : ∀ (i last : Nat), last ≤ i →
    lastBeforeTable es i last ≤ i + es.length ∧
    ∀ j e, i + j < lastBeforeTable es i last → es[j]? = some e → opensTable e = false := by
  induction es with
  | nil => intro i last h; exact ⟨by simpa [lastBeforeTable] using h, fun j e _ he => by cases he⟩
  | cons x r ih =>
    intro i last h
    have step : ∀ l, l ≤ i + 1 → opensTable x = false → lastBeforeTable r (i + 1) l ≤ i + (x :: r).length ∧
        ∀ j e, i + j < lastBeforeTable r (i + 1) l → (x :: r)[j]? = some e → opensTable e = false := by
      intro l hl hx
      obtain ⟨h1, h2⟩ := ih (i + 1) l hl
      refine ⟨by rw [List.length_cons]; omega, ?_⟩
      intro j e hj he
      rcases j with _ | j
      · cases he; exact hx
      · exact h2 j e (by omega) (by simpa using he)
    rcases x with ⟨k, v⟩
    have hd : ∀ v : Item, v.isTableLike = false → opensTable (.mk k v) = false := by
      intro v hv; simp [opensTable, hv]
    rcases v with ⟨s, _ | _⟩ | _ | _ | _ | _ | _ | _ | _ | _ | _ | _ | tb | ⟨ts, t, nm, p⟩ | _ <;> unfold lastBeforeTable <;>
      first
        | exact step _ (by omega) (hd _ rfl)
        | (dsimp only
           split
           · exact ⟨by omega, fun j e hj => by omega⟩
           · rename_i hn
             exact step _ (by omega) (by simpa [opensTable] using hn))

theorem take_modify {α : Type} (l : List α) (p : Nat) (f : α → α) (hp : 0 < p) :
    (l.modify (p - 1) f).take p = (l.take p).modify (p - 1) f ∧ (l.modify (p - 1) f).drop p = l.drop p := by
  constructor
  · apply List.ext_getElem?
    intro j
    simp only [List.getElem?_take, List.getElem?_modify]
    split <;> simp
  · apply List.ext_getElem?
    intro j
    simp only [List.getElem?_drop, List.getElem?_modify]
    have : p - 1 ≠ p + j := by omega
    rcases l[p + j]? with _ | a <;> simp [this]

theorem insertIdx_take {α : Type} (a b : List α) (x : α) {p : Nat} (h : a.length = p) : (a ++ b).insertIdx p x = a ++ x :: b := by
  subst h
  induction a with
  | nil => rfl
  | cons y r ih => simp [List.insertIdx_succ_cons, ih]

theorem addTrailNl_closes (b : List Entry) : ClosesLine b (addTrailNl (b.length - 1) b) := by
  unfold addTrailNl
  rcases List.eq_nil_or_concat b with rfl | ⟨init, x, rfl⟩
  · left; rfl
  · have hmod : ∀ f : Entry → Entry, (init ++ [x]).modify ((init ++ [x]).length - 1) f = init ++ [f x] := by
      intro f
      have : (init ++ [x]).length - 1 = init.length := by simp
      rw [this]
      apply List.ext_getElem?
      intro j
      rw [List.getElem?_modify]
      rcases Nat.lt_trichotomy j init.length with hj | hj | hj
      · rw [List.getElem?_append_left hj, List.getElem?_append_left hj]
        have : init.length ≠ j := by omega
        simp [this]
      · subst hj; simp
      · rw [List.getElem?_append_right (by omega), List.getElem?_append_right (by omega)]
        have h0 : j - init.length = (j - init.length - 1) + 1 := by omega
        rw [h0]; simp
    rw [List.concat_eq_append, hmod]
    split
    · left; rfl
    · right
      rename_i hc
      rcases x with ⟨key, v⟩
      refine ⟨init, key, v, rfl, ?_, rfl⟩
      simp only [Entry.v_mk, Bool.or_eq_true, not_or, Bool.not_eq_true] at hc
      exact ⟨hc.1.1, hc.1.2, hc.2⟩

theorem rawAppend_new_eq {c : Cont} {k : SKey} {v : Item} (hv : v.isTableLike = false) (hk : mapGet k.key c.map = none) :
    c.rawAppend (some k) v = .ok (.mk (c.body ++ [.mk (some k) v]) (mapSet k.key [c.body.length] c.map)
      (dictSet k.key c.dict) c.parsed c.tableKeys) := by
  have : v.isTable = false := by
    revert hv; unfold Item.isTableLike; cases v.isTable <;> simp
  unfold Cont.rawAppend
  simp only [hk, this, Bool.false_eq_true, if_false]

/-- a new key goes before the tables -/
theorem appendTail_place {c : Cont} (hp : c.parsed = false) {k : SKey} {v : Item} (hv : v.isTableLike = false)
    (hk : mapGet k.key c.map = none) : ∃ c' b1 b1' b2, c.appendTail (some k) v = .ok c' ∧ c.body = b1 ++ b2 ∧
      c'.body = b1' ++ .mk (some k) v :: b2 ∧ ClosesLine b1 b1' ∧ (∀ e ∈ b1, opensTable e = false) ∧
      mapGet k.key c'.map = some [b1.length] ∧ c'.parsed = false := by
  unfold Cont.appendTail
  dsimp only
  by_cases hbe : c.body.isEmpty
  · rw [hbe]
    simp only [Bool.not_true, Bool.false_and, Bool.false_eq_true, if_false]
    rw [rawAppend_new_eq hv hk]
    rw [List.isEmpty_iff] at hbe
    refine ⟨_, [], [], [], rfl, hbe, by rw [hbe]; rfl, Or.inl rfl, (fun e he => by cases he), ?_, hp⟩
    rw [Cont.map_mk, mapGet_mapSet, if_pos rfl, hbe]
  · have hcond : (!c.body.isEmpty && !c.parsed && (!v.isTableLike || k.dotted)) = true := by simp [hbe, hp, hv]
    rw [if_pos hcond]
    obtain ⟨h1, h2⟩ := lastBeforeTable_spec c.body 0 0 (Nat.le_refl 0)
    have hp0 : c.lastIndexBeforeTable = lastBeforeTable c.body 0 0 := rfl
    generalize hpp : c.lastIndexBeforeTable = p at *
    rw [← hp0] at h1 h2
    rw [Nat.zero_add] at h1
    have hmem : ∀ e ∈ c.body.take p, opensTable e = false := by
      intro e he
      obtain ⟨j, hj⟩ := List.getElem?_of_mem he
      rw [List.getElem?_take] at hj
      split at hj
      · rename_i hjp
        exact h2 j e (by omega) hj
      · cases hj
    by_cases hlt : p < c.body.length
    · rw [if_pos hlt]
      unfold Cont.insertAt
      rw [if_neg (by omega)]
      have hms : mapGet k.key (shiftFrom p c.map) = none := by rw [mapGet_shift, hk]; rfl
      refine ⟨_, c.body.take p, (if 0 < p && !v.isTableLike then addTrailNl (p - 1) c.body else c.body).take p,
        c.body.drop p, rfl, (List.take_append_drop _ _).symm, ?_, ?_, hmem, ?_, hp⟩
      · have hdrop : (if 0 < p && !v.isTableLike then addTrailNl (p - 1) c.body else c.body).drop p = c.body.drop p := by
          split
          · rename_i hc
            simp only [Bool.and_eq_true, decide_eq_true_eq] at hc
            exact (take_modify _ _ _ hc.1).2
          · rfl
        have hlen : p ≤ (if 0 < p && !v.isTableLike then addTrailNl (p - 1) c.body else c.body).length := by
          split
          · rw [addTrailNl_length]; omega
          · omega
        rw [Cont.body_mk]
        conv => lhs; rw [← List.take_append_drop p (if 0 < p && !v.isTableLike then addTrailNl (p - 1) c.body else c.body)]
        rw [hdrop]
        exact insertIdx_take _ _ _ (by rw [List.length_take, Nat.min_eq_left hlen])
      · split
        · rename_i hc
          simp only [Bool.and_eq_true, decide_eq_true_eq] at hc
          have := addTrailNl_closes (c.body.take p)
          rw [List.length_take, Nat.min_eq_left (by omega)] at this
          unfold addTrailNl at this ⊢
          rw [(take_modify _ _ _ hc.1).1]
          exact this
        · left; rfl
      · rw [hms]
        rw [Cont.map_mk, mapGet_mapSet, if_pos rfl, List.length_take, Nat.min_eq_left (by omega)]
    · rw [if_neg hlt]
      have hpe : p = c.body.length := by omega
      rw [rawAppend_new_eq hv (by rw [Cont.map_mk]; exact hk)]
      refine ⟨_, c.body, addTrailNl (c.body.length - 1) c.body, [], rfl, by simp, rfl, addTrailNl_closes _, ?_, ?_, hp⟩
      · rw [hpe, List.take_length] at hmem; exact hmem
      · rw [Cont.map_mk, mapGet_mapSet, if_pos rfl, Cont.body_mk, addTrailNl_length]

theorem closesLine_length {b b' : List Entry} (h : ClosesLine b b') : b'.length = b.length := by
  rcases h with rfl | ⟨init, key, v, rfl, _, rfl⟩
  · rfl
  · simp

theorem setTriviaAt_mid (b1 b2 : List Entry) (e : Entry) (f : Trivia → Trivia) {n : Nat} (hn : b1.length = n) :
    setTriviaAt n f (b1 ++ e :: b2) = b1 ++ .mk e.key (e.v.setTrivia (f e.v.trivia)) :: b2 := by
  subst hn
  unfold setTriviaAt
  induction b1 with
  | nil => rfl
  | cons x r ih => simpa using ih

theorem setTrivia_self (v : Item) : v.setTrivia v.trivia = v := by
  rcases v with _ | _ | _ | _ | _ | _ | _ | _ | _ | _ | _ | ⟨c, t, a, s, n, d⟩ | ⟨ts, t, nm, p⟩ | _ <;> rfl

/-- `d[k] = v` and `d.append(k, v)` for a new key, in a document or table -/
theorem run_new {h : Holder} (hh : h = .doc ∨ ∃ t, h = .table t) {c : Cont} (hp : c.parsed = false) {k : Str} {v : Item}
    (hv : v.isTableLike = false) (hk : mapGet k c.map = none) {op : Op} (hop : op = .set k v ∨ op = .append k v) :
    ∃ c' b1 b1' b2 ind, op.run h c = .ok c' ∧ c.body = b1 ++ b2 ∧
      c'.body = b1' ++ .mk (some (mkKey k)) (v.setTrivia { v.trivia with indent := ind }) :: b2 ∧ ClosesLine b1 b1' ∧
      (∀ e ∈ b1, opensTable e = false) ∧ mapGet k c'.map = some [b1.length] ∧ (h = .doc → ind = v.trivia.indent) := by
  have hk' : mapGet (mkKey k).key c.map = none := by rw [mkKey_key]; exact hk
  obtain ⟨c', b1, b1', b2, h1, h2, h3, h4, h5, h6, h7⟩ := appendTail_place hp hv hk'
  rw [mkKey_key] at h6
  have happ : Cont.append true c (some (.single (mkKey k))) v = .ok (c', false) := by
    rw [append_plain_new hv hk', h1]; rfl
  have hself : ∀ ind, ind = v.trivia.indent → v.setTrivia { v.trivia with indent := ind } = v := by
    rintro _ rfl; exact setTrivia_self v
  have hset : c.setItem k v = .ok c' := by
    unfold Cont.setItem
    rw [fuelFor, has_absent hk]
    dsimp only
    rw [happ]; rfl
  have hind : ∀ (ind : Str), ∃ ind', (Cont.mk (setTriviaAt b1.length (fun t => { t with indent := insertIndent ind t.indent }) c'.body)
      c'.map c'.dict c'.parsed c'.tableKeys).body =
        b1' ++ .mk (some (mkKey k)) (v.setTrivia { v.trivia with indent := ind' }) :: b2 := by
    intro ind
    rw [Cont.body_mk, h3, setTriviaAt_mid _ _ _ _ (closesLine_length h4)]
    exact ⟨_, rfl⟩
  rcases hh with rfl | ⟨t, rfl⟩
  · refine ⟨c', b1, b1', b2, v.trivia.indent, ?_, h2, ?_, h4, h5, h6, fun _ => rfl⟩
    · rcases hop with rfl | rfl
      · exact hset
      · show (Cont.append true c (some (.single (mkKey k))) v).map Prod.fst = _
        rw [happ]; rfl
    · rw [hself _ rfl]; exact h3
  · rcases hop with rfl | rfl
    · show ∃ c' b1 b1' b2 ind, c.setItemIndented t.indent k v = _ ∧ _
      unfold Cont.setItemIndented
      rw [fuelFor, has_absent hk]
      dsimp only
      rw [hset]
      dsimp only
      split
      · exact ⟨c', b1, b1', b2, v.trivia.indent, rfl, h2, by rw [hself _ rfl]; exact h3, h4, h5, h6, fun _ => rfl⟩
      · split
        · exact ⟨c', b1, b1', b2, v.trivia.indent, rfl, h2, by rw [hself _ rfl]; exact h3, h4, h5, h6, fun _ => rfl⟩
        · rename_i ind _
          rw [h6]
          obtain ⟨ind', hb⟩ := hind ind
          exact ⟨_, b1, b1', b2, ind', rfl, h2, hb, h4, h5, h6, fun h => by cases h⟩
    · show ∃ c' b1 b1' b2 ind, tableAppendStr t c k v = _ ∧ _
      unfold tableAppendStr
      rw [happ]
      dsimp only
      split
      · exact ⟨c', b1, b1', b2, v.trivia.indent, rfl, h2, by rw [hself _ rfl]; exact h3, h4, h5, h6, fun _ => rfl⟩
      · rename_i ind _
        split
        · exact ⟨c', b1, b1', b2, v.trivia.indent, rfl, h2, by rw [hself _ rfl]; exact h3, h4, h5, h6, fun _ => rfl⟩
        · rw [hk, h6]
          obtain ⟨ind', hb⟩ := hind ind
          exact ⟨_, b1, b1', b2, ind', rfl, h2, hb, h4, h5, h6, fun h => by cases h⟩

theorem stopParsing_fields (c : Cont) : c.stopParsing.body = c.body.map Entry.stopParsing ∧ c.stopParsing.map = c.map ∧
    c.stopParsing.parsed = false := by
  obtain ⟨b, m, d, p, tk⟩ := c
  refine ⟨?_, rfl, rfl⟩
  show b.stopParsingEntries = b.map Entry.stopParsing
  induction b with
  | nil => rfl
  | cons e r ih =>
    show e.stopParsing :: r.stopParsingEntries = _
    rw [ih]; rfl

theorem stopParsingTables_eq (ts : List Tbl) : ts.stopParsingTables = ts.map Tbl.stopParsing := by
  induction ts with
  | nil => rfl
  | cons t r ih =>
    show t.stopParsing :: r.stopParsingTables = _
    rw [ih]; rfl

/-- no table of a document that has been read is still in parsing mode -/
theorem place_stopParsing (path : List Step) : ∀ {x y : Place}, (∃ c : Cont, x.cont = c.stopParsing) → place path x = some y →
    ∃ c : Cont, y.cont = c.stopParsing := by
  induction path with
  | nil => intro x y hx hi; cases hi; exact hx
  | cons s r ih =>
    intro x y hx hi
    obtain ⟨c, hc⟩ := hx
    obtain ⟨hbody, _, _⟩ := stopParsing_fields c
    have hentry : ∀ {i : Nat} {key : Option SKey} {v : Item}, x.cont.body[i]? = some (.mk key v) → ∃ v0 : Item, v = v0.stopParsing := by
      intro i key v hb
      rw [hc, hbody, List.getElem?_map] at hb
      rcases hb0 : c.body[i]? with _ | ⟨k0, v0⟩ <;> rw [hb0] at hb
      · cases hb
      · cases hb; exact ⟨v0, rfl⟩
    rcases s with k | ⟨k, j⟩ <;> unfold place at hi
    · split at hi
      · split at hi
        · rename_i key tb hb
          obtain ⟨v0, hv⟩ := hentry hb
          refine ih (x := .table key tb) ?_ hi
          rcases v0 with _ | _ | _ | _ | _ | _ | _ | _ | _ | _ | _ | ⟨c0, t, a, s, n, d⟩ | ⟨ts, t, nm, p⟩ | _ <;>
            first | (cases hv; exact ⟨c0, rfl⟩) | cases hv
        · cases hi
      · cases hi
    · split at hi
      · split at hi
        · rename_i key ts t nm p hb
          obtain ⟨v0, hv⟩ := hentry hb
          split at hi
          · rename_i tb hj
            refine ih (x := .elem tb) ?_ hi
            rcases v0 with _ | _ | _ | _ | _ | _ | _ | _ | _ | _ | _ | ⟨c0, t, a, s, n, d⟩ | ⟨ts0, t, nm, p⟩ | _ <;>
              first | cases hv | skip
            rw [show ts0.stopParsingTables = _ from stopParsingTables_eq ts0, List.getElem?_map] at hj
            rcases hj0 : ts0[j]? with _ | ⟨c0, t0, a0, s0, n0, d0⟩ <;> rw [hj0] at hj
            · cases hj
            · cases hj; exact ⟨c0, rfl⟩
          · cases hi
        · cases hi
      · cases hi

/-- both ways to follow a path agree -/
theorem place_ends (path : List Step) : ∀ {x y : Place}, place path x = some y →
    ends path x.holder x.cont = some (y.holder, y.cont) := by
  induction path with
  | nil => intro x y hi; cases hi; rfl
  | cons s r ih =>
    intro x y hi
    rcases s with k | ⟨k, j⟩ <;> unfold place at hi <;> unfold ends
    · split at hi
      · rename_i i hm
        try rw [hm]
        try dsimp only
        split at hi
        · rename_i key tb hb
          try rw [hb]
          exact ih (x := .table key tb) hi
        · cases hi
      · cases hi
    · split at hi
      · rename_i i hm
        try rw [hm]
        try dsimp only
        split at hi
        · rename_i key ts t nm p hb
          try rw [hb]
          try dsimp only
          split at hi
          · rename_i tb hj
            try rw [hj]
            exact ih (x := .elem tb) hi
          · cases hi
        · cases hi
      · cases hi

end Tomlkit
