import Verif.Proofs.Value
import Verif.Model.Equal
/-!
# C47: what a document is compared by
-/
namespace Tomlkit
open _root_.Spec Tomlkit.Spec

/-- **C47**, `doc.value`: every key once, and at every place exactly what some part of the document writes there. -/
theorem C47_value (c : Cont) (h : Every Separate c) :
    KeysOnce (.dict c.pyItems) ∧ ∀ k p s, look (.key k :: p) (.dict c.pyItems) = some s ↔ WrittenIn c k p s :=
  ⟨keysOnce_items c, value_cont c h⟩

/-- `value` and `unwrap` have the same data at every place -/
theorem C47_unwrap (c : Cont) (hc : Every Consistent c) (h : Every Separate c) (n : Nat) (l : List PyPair)
    (hu : Cont.unwrap n c = .ok l) (p : List Hop) : look p (.dict c.pyItems) = look p (.dict l) := by
  rcases p with _ | ⟨k | i, p⟩
  · rfl
  · have h1 := (C47_value c h).2 k p
    have h2 := (C32_unwrap c hc n l hu).2.1 k p
    apply Option.ext
    intro s
    rw [h1, h2]
  · rfl

/-! ### Python's `==` -/

theorem look_list {l m : List PyVal} (h : ∀ p, look p (.list l) = look p (.list m)) :
    l.length = m.length ∧ ∀ (i : Nat) p, l[i]?.bind (look p) = m[i]?.bind (look p) := by
  constructor
  · have := h []
    simpa [look_nil, shapeOf] using this
  · intro i p
    have := h (.idx i :: p)
    rwa [look_idx, look_idx] at this

theorem look_dict {l m : List PyPair} (h : ∀ p, look p (.dict l) = look p (.dict m)) (k : Str) (p : List Hop) :
    (pyGet k l).bind (look p) = (pyGet k m).bind (look p) := by
  have := h (.key k :: p)
  rwa [look_key, look_key] at this

theorem pyGet_some_iff {k : Str} {l : List PyPair} : (pyGet k l).isSome = true ↔ k ∈ l.map PyPair.key := by
  induction l with
  | nil => simp [pyGet]
  | cons a r ih =>
    rw [pyGet, List.map_cons, List.mem_cons]
    by_cases h : a.key = k
    · rw [if_pos (by simpa using h)]; simp [h]
    · rw [if_neg (by simpa using h), ih]
      exact ⟨.inr, fun h' => h'.elim (fun e => absurd e.symm h) id⟩

theorem eqLeaf_same {a b : PyVal} (h : ∀ p, look p a = look p b) (f : PyVal → Bool) : pyEqLeaf a (f a) = pyEqLeaf b (f b) := by
  have h0 := h []
  rw [look_nil, look_nil] at h0
  have h0 := Option.some.inj h0
  cases a <;> cases b <;> first | rfl | (cases h0; rfl) | cases h0

mutual
theorem pyEq_same (leaf : PyVal → PyVal → Bool) : ∀ (o a b : PyVal), (∀ p, look p a = look p b) → pyEq leaf a o = pyEq leaf b o
  | .list m, a, b, h => by
    have h0 := h []
    rw [look_nil, look_nil] at h0
    have h0 := Option.some.inj h0
    unfold pyEq
    cases a <;> cases b <;> first | rfl | cases h0 | skip
    exact pyEqAll_same leaf m _ _ h
  | .dict m, a, b, h => by
    have h0 := h []
    rw [look_nil, look_nil] at h0
    have h0 := Option.some.inj h0
    unfold pyEq
    cases a <;> cases b <;> first | rfl | cases h0 | skip
    rename_i l1 l2
    have hg := look_dict h
    have hkey : ∀ k, k ∈ l1.map PyPair.key ↔ k ∈ l2.map PyPair.key := by
      intro k
      rw [← pyGet_some_iff, ← pyGet_some_iff]
      have := hg k []
      cases e1 : pyGet k l1 <;> cases e2 : pyGet k l2 <;> rw [e1, e2] at this <;> first | (simp; done) | cases this
    have hall : (l1.all fun p => (m.map PyPair.key).contains p.key) = (l2.all fun p => (m.map PyPair.key).contains p.key) := by
      have hm : ∀ l : List PyPair, (l.all fun p => (m.map PyPair.key).contains p.key) = true ↔ ∀ k ∈ l.map PyPair.key, k ∈ m.map PyPair.key := by
        intro l
        rw [List.all_eq_true]
        constructor
        · intro hl k hk
          obtain ⟨p, hp, rfl⟩ := List.mem_map.1 hk
          exact List.contains_iff_mem.1 (hl p hp)
        · intro hl p hp
          exact List.contains_iff_mem.2 (hl _ (List.mem_map.2 ⟨p, hp, rfl⟩))
      rw [Bool.eq_iff_iff, hm, hm]
      constructor
      · intro hl k hk; exact hl k ((hkey k).2 hk)
      · intro hl k hk; exact hl k ((hkey k).1 hk)
    show (_ && _) = (_ && _)
    rw [hall, pyEqIn_same leaf m _ _ hg]
  | .none, a, b, h => eqLeaf_same h fun x => leaf x .none
  | .bool v, a, b, h => eqLeaf_same h fun x => leaf x (.bool v)
  | .int v, a, b, h => eqLeaf_same h fun x => leaf x (.int v)
  | .float v, a, b, h => eqLeaf_same h fun x => leaf x (.float v)
  | .str v, a, b, h => eqLeaf_same h fun x => leaf x (.str v)
  | .datetime v, a, b, h => eqLeaf_same h fun x => leaf x (.datetime v)
  | .date v, a, b, h => eqLeaf_same h fun x => leaf x (.date v)
  | .time v, a, b, h => eqLeaf_same h fun x => leaf x (.time v)
termination_by structural o => o
theorem pyEqAll_same (leaf : PyVal → PyVal → Bool) : ∀ (o l m : List PyVal), (∀ p, look p (.list l) = look p (.list m)) →
    pyEqAll leaf l o = pyEqAll leaf m o
  | [], l, m, h => by
    have := (look_list h).1
    unfold pyEqAll
    cases l <;> cases m <;> first | rfl | cases this
  | v :: r, l, m, h => by
    obtain ⟨h1, h2⟩ := look_list h
    unfold pyEqAll
    cases l <;> cases m <;> first | rfl | cases h1 | skip
    rename_i w l w' m
    show (_ && _) = (_ && _)
    rw [pyEq_same leaf v w w' fun p => h2 0 p, pyEqAll_same leaf r l m ?_]
    intro p
    rcases p with _ | ⟨k | i, p⟩
    · rw [look_nil, look_nil]
      simp [shapeOf]
      simpa using h1
    · rfl
    · rw [look_idx, look_idx]
      exact h2 (i + 1) p
termination_by structural o => o
theorem pyEqIn_same (leaf : PyVal → PyVal → Bool) : ∀ (o l m : List PyPair), (∀ k p, (pyGet k l).bind (look p) = (pyGet k m).bind (look p)) →
    pyEqIn leaf l o = pyEqIn leaf m o
  | [], _, _, _ => rfl
  | p :: r, l, m, h => by
    unfold pyEqIn
    rw [pyEqPair_same leaf p l m h, pyEqIn_same leaf r l m h]
termination_by structural o => o
theorem pyEqPair_same (leaf : PyVal → PyVal → Bool) : ∀ (o : PyPair) (l m : List PyPair), (∀ k p, (pyGet k l).bind (look p) = (pyGet k m).bind (look p)) →
    pyEqPair leaf l o = pyEqPair leaf m o
  | .mk k v, l, m, h => by
    have hk := h k
    unfold pyEqPair
    cases e1 : pyGet k l <;> cases e2 : pyGet k m <;> rw [e1, e2] at hk
    · have := hk []; cases this
    · have := hk []; cases this
    · exact pyEq_same leaf v _ _ hk
termination_by structural o => o
end

/-- **C47**: `doc == other` answers what `doc.unwrap() == other` answers. -/
theorem C47_equal (c : Cont) (hc : Every Consistent c) (h : Every Separate c) (n : Nat) (l : List PyPair)
    (hu : Cont.unwrap n c = .ok l) (leaf : PyVal → PyVal → Bool) (other : List PyPair) :
    c.eq leaf other = pyEq leaf (.dict l) (.dict other) :=
  pyEq_same leaf (.dict other) _ _ (C47_unwrap c hc h n l hu)

/-- C47 for a document that was read -/
theorem C47_parsed (t : Str) (c : Cont) (hp : parse t = .ok c) (h : Every Separate c) (n : Nat) (l : List PyPair)
    (hu : Cont.unwrap n c = .ok l) (leaf : PyVal → PyVal → Bool) (other : List PyPair) :
    c.eq leaf other = pyEq leaf (.dict l) (.dict other) :=
  C47_equal c ((every_iff c).2 ((parse_all t).1 c hp)) h n l hu leaf other

/-! ### when parts cannot collide -/

/-- the names of the entries of a table -/
def Item.names (i : Item) : List Str := (entriesOf i).filterMap Entry.name

/-- two entries with different keys, or two tables without a common key; no white space under a key -/
def partsOk : Option Entry → Option Entry → Bool
  | some (.mk (some k) v), some (.mk (some k') w) => k.key != k'.key || (v.isTable && w.isTable && v.names.all fun n => !w.names.contains n)
  | _, _ => true

/-- a check on the entries of one container -/
def Cont.partsOk (c : Cont) : Bool :=
  (c.body.all fun e => e.key.isNone || !e.v.isWhitespace) &&
  (List.range c.body.length).all fun i => (List.range c.body.length).all fun j => i == j || Tomlkit.partsOk c.body[i]? c.body[j]?

/-- parts without a common key do not collide -/
theorem separate_of {c : Cont} (h : c.partsOk = true) : Separate c := by
  unfold Cont.partsOk at h
  rw [Bool.and_eq_true, List.all_eq_true, List.all_eq_true] at h
  obtain ⟨h1, h2⟩ := h
  have hlt : ∀ {i k v}, HoldsAt c i k v → i < c.body.length := by
    rintro i k v ⟨key, hk, _⟩
    rcases Nat.lt_or_ge i c.body.length with h | h
    · exact h
    · rw [List.getElem?_eq_none h] at hk; cases hk
  constructor
  · intro i j k v w hv hw hij p s s' hs hs'
    have h3 := List.all_eq_true.1 (h2 i (List.mem_range.2 (hlt hv))) j (List.mem_range.2 (hlt hw))
    obtain ⟨key, e1, e2⟩ := hv
    obtain ⟨key', e3, e4⟩ := hw
    rw [e1, e3] at h3
    have hne : (i == j) = false := by simpa using hij
    rw [hne, Bool.false_or] at h3
    simp only [Tomlkit.partsOk, e2, e4, bne_self_eq_false, Bool.false_or, Bool.and_eq_true] at h3
    obtain ⟨⟨t1, t2⟩, t3⟩ := h3
    have htab : ∀ x : Item, x.isTable = true → itemShape x = .dict ∧ elementsOf x = [] := by
      intro x hx
      cases x <;> first | exact ⟨rfl, rfl⟩ | cases hx
    rcases p with _ | ⟨n | n, p⟩
    · exact ⟨hs.symm.trans (htab v t1).1, hs'.symm.trans (htab w t2).1⟩
    · exfalso
      have hname : ∀ {x : Item} {s : Shape}, Written (.key n :: p) x s → n ∈ x.names := by
        rintro x s ⟨key, y, m1, m2, _⟩
        exact List.mem_filterMap.2 ⟨_, m1, congrArg some m2⟩
      have := List.all_eq_true.1 t3 n (hname hs)
      rw [List.contains_iff_mem.2 (hname hs')] at this
      cases this
    · exfalso
      obtain ⟨x, hx, _⟩ := hs
      rw [(htab v t1).2] at hx
      cases hx
  · rintro i k v ⟨key, e1, e2⟩
    have := h1 _ (List.mem_iff_getElem?.2 ⟨i, e1⟩)
    simpa [Entry.key, Entry.v] using this

mutual
/-- the check for every container inside -/
def itemOk : Item → Bool
  | .array gs _ _ => groupsOk gs
  | .inline c _ _ => contOk c
  | .table tb => tblOk tb
  | .aot ts _ _ _ => tablesOk ts
  | _ => true
termination_by structural i => i
@[inherit_doc itemOk]
def groupsOk : List AGroup → Bool
  | [] => true
  | g :: r => groupOk g && groupsOk r
termination_by structural g => g
@[inherit_doc itemOk]
def groupOk : AGroup → Bool
  | .noval .. => true
  | .val _ v _ _ => itemOk v
termination_by structural g => g
@[inherit_doc itemOk]
def tblOk : Tbl → Bool
  | .mk c _ _ _ _ _ => contOk c
termination_by structural t => t
@[inherit_doc itemOk]
def tablesOk : List Tbl → Bool
  | [] => true
  | t :: r => tblOk t && tablesOk r
termination_by structural t => t
@[inherit_doc itemOk]
def contOk : Cont → Bool
  | .mk b m d p tk => (Cont.mk b m d p tk).partsOk && entriesOk b
termination_by structural c => c
@[inherit_doc itemOk]
def entriesOk : List Entry → Bool
  | [] => true
  | e :: r => entryOk e && entriesOk r
termination_by structural e => e
@[inherit_doc itemOk]
def entryOk : Entry → Bool
  | .mk _ v => itemOk v
termination_by structural e => e
end

mutual
theorem item_ok : ∀ i : Item, itemOk i = true → EveryItem Separate i
  | .array gs _ _, h => groups_ok gs h
  | .inline c _ _, h => cont_ok c h
  | .table tb, h => tbl_ok tb h
  | .aot ts _ _ _, h => tables_ok ts h
  | .ws .., _ | .comment _, _ | .integer .., _ | .float .., _ | .bool .., _ | .datetime .., _ | .date .., _ | .time .., _
  | .str .., _ | .null _, _ => trivial
termination_by structural i => i
theorem groups_ok : ∀ gs : List AGroup, groupsOk gs = true → EveryGroups Separate gs
  | [], _ => trivial
  | g :: r, h => ⟨group_ok g (Bool.and_eq_true_iff.1 h).1, groups_ok r (Bool.and_eq_true_iff.1 h).2⟩
termination_by structural g => g
theorem group_ok : ∀ g : AGroup, groupOk g = true → EveryGroup Separate g
  | .noval .., _ => trivial
  | .val _ v _ _, h => item_ok v h
termination_by structural g => g
theorem tbl_ok : ∀ t : Tbl, tblOk t = true → EveryTbl Separate t
  | .mk c _ _ _ _ _, h => cont_ok c h
termination_by structural t => t
theorem tables_ok : ∀ ts : List Tbl, tablesOk ts = true → EveryTables Separate ts
  | [], _ => trivial
  | t :: r, h => ⟨tbl_ok t (Bool.and_eq_true_iff.1 h).1, tables_ok r (Bool.and_eq_true_iff.1 h).2⟩
termination_by structural t => t
theorem cont_ok : ∀ c : Cont, contOk c = true → Every Separate c
  | .mk b _ _ _ _, h => ⟨separate_of (Bool.and_eq_true_iff.1 h).1, entries_ok b (Bool.and_eq_true_iff.1 h).2⟩
termination_by structural c => c
theorem entries_ok : ∀ b : List Entry, entriesOk b = true → EveryEntries Separate b
  | [], _ => trivial
  | e :: r, h => ⟨entry_ok e (Bool.and_eq_true_iff.1 h).1, entries_ok r (Bool.and_eq_true_iff.1 h).2⟩
termination_by structural e => e
theorem entry_ok : ∀ e : Entry, entryOk e = true → EveryEntry Separate e
  | .mk _ v, h => item_ok v h
termination_by structural e => e
end

/-- C47 for documents none of whose tables has a key in two of its parts: the condition is a computation. -/
theorem C47_checked (t : Str) (c : Cont) (hp : parse t = .ok c) (h : contOk c = true) (n : Nat) (l : List PyPair)
    (hu : Cont.unwrap n c = .ok l) (leaf : PyVal → PyVal → Bool) (other : List PyPair) :
    c.eq leaf other = pyEq leaf (.dict l) (.dict other) :=
  C47_parsed t c hp (cont_ok c h) n l hu leaf other

/-- Python's `==` on some leaves -/
def sampleLeaf (a b : PyVal) : Bool := match a, b with
  | .int m, .int n => m == n
  | .str s, .str t => s == t
  | _, _ => false

/-- a table in two parts around another one, with an inline table in an array -/
def twoParts : Str := t!"[a.b]\nx = 1\n[c]\nl = [2, {m = 3}]\n[a]\nz = 'w'\n"

/-- what it says, keys in another order -/
def twoPartsData : List PyPair :=
  [.mk (t!"c") (.dict [.mk (t!"l") (.list [.int 2, .dict [.mk (t!"m") (.int 3)]])]),
   .mk (t!"a") (.dict [.mk (t!"z") (.str (t!"w")), .mk (t!"b") (.dict [.mk (t!"x") (.int 1)])])]

set_option maxRecDepth 10000 in
/-- it meets the hypotheses, and equals its data -/
theorem twoParts_ok : (match parse twoParts with
    | .ok c => contOk c && (Cont.unwrap 30 c).toOption.isSome && c.eq sampleLeaf twoPartsData && !c.eq sampleLeaf (twoPartsData.drop 1)
    | .error _ => false) = true := by decide +kernel

set_option maxRecDepth 10000 in
/-- When parts collide, `==` answers although the document cannot be unwrapped, and what the last part says hides the rest: `[a.b]`,
`[c]`, then `[a]` with `b = 2` equals `{"a": {"b": 2}, "c": {}}`. -/
theorem C47_counterexample_conflict : (match parse (t!"[a.b]\nx = 1\n[c]\n[a]\nb = 2\n") with
    | .ok c => !contOk c && (Cont.unwrap 30 c).toOption.isNone &&
      c.eq sampleLeaf [.mk (t!"a") (.dict [.mk (t!"b") (.int 2)]), .mk (t!"c") (.dict [])]
    | .error _ => false) = true := by decide +kernel

end Tomlkit
