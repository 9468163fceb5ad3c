import Verif.Proofs.Sequence
import Verif.Props.Arrays
/-!
# C46: the list methods that arrays and arrays of tables inherit
-/
namespace Tomlkit
open _root_.Tomlkit.Spec

/-! ## lists seen through a function -/

theorem pyInsert_map {α β : Type} (f : α → β) (l : List α) (k : Int) (x : α) :
    (pyInsert l k x).map f = pyInsert (l.map f) k (f x) := by
  unfold pyInsert; rw [map_insertIdx, List.length_map]

theorem pySet_map {α β : Type} (f : α → β) (l : List α) (k : Int) (x : α) :
    pySet (l.map f) k (f x) = (pySet l k x).map (·.map f) := by
  unfold pySet
  rw [List.length_map]
  cases pyIndex k l.length with
  | none => rfl
  | some i => simp [List.map_set]

theorem pyDel_map {α β : Type} (f : α → β) (l : List α) (k : Int) :
    pyDel (l.map f) k = (pyDel l k).map (·.map f) := by
  unfold pyDel
  rw [List.length_map]
  cases pyIndex k l.length with
  | none => rfl
  | some i => simp [eraseIdx_map']

/-! ## Array -/

@[simp] theorem Item.handed_handed (i : Item) : i.handed.handed = i.handed := by cases i <;> rfl
theorem Item.handed_isData {i : Item} (h : i.isData = true) : i.handed.isData = true := by cases i <;> first | exact h | rfl

/-- an element and what the caller sees of it have the same text -/
theorem Item.handed_text (i : Item) : i.handed.asString = i.asString := by cases i <;> first | rfl | simp [Item.handed, Item.asString]

/-- list and text in step, and all elements data -/
def ArrObj.Clean (a : ArrObj) : Prop := a.Inv ∧ ∀ it ∈ a.list, it.isData = true

/-- what the caller sees of an array -/
def ArrObj.seen (a : ArrObj) : List Item := a.list.map Item.handed

theorem arraySeq_acts : arraySeq.Acts ArrObj.Clean ArrObj.seen Item.handed (fun it => it.isData = true) where
  len a _ := by simp [arraySeq, ArrObj.seen]
  get a k h := by
    simp only [ArrObj.seen, List.length_map, arraySeq, ArrObj.getItem]
    cases hk : pyIndex k a.list.length with
    | none => rfl
    | some i =>
      have hi := (pyIndex_some hk).1
      simp only [List.getElem?_eq_getElem hi]
      exact ⟨_, rfl, by simp [hi], Item.handed_isData (h.2 _ (List.getElem_mem hi))⟩
  del a k h := by
    have hd := del_inv h.1 k
    simp only [ArrObj.seen, pyDel_map, arraySeq]
    cases hl : pyDel a.list k with
    | none => rw [hl] at hd; exact hd
    | some l =>
      rw [hl] at hd
      obtain ⟨b, h1, h2, h3⟩ := hd
      refine ⟨b, h1, ⟨h2, ?_⟩, by rw [h3]⟩
      intro it hit
      rw [h3] at hit
      unfold pyDel at hl
      cases hk : pyIndex k a.list.length with
      | none => rw [hk] at hl; simp at hl
      | some i =>
        rw [hk] at hl
        simp only [Option.map_some, Option.some.injEq] at hl
        rw [← hl] at hit
        exact h.2 _ (List.mem_of_mem_eraseIdx hit)
  insert a k x h hx := by
    obtain ⟨b, h1, h2, h3⟩ := insert_inv h.1 k x hx
    refine ⟨b, h1, ⟨h2, ?_⟩, by simp only [ArrObj.seen]; rw [h3, pyInsert_map]⟩
    intro it hit
    rw [h3] at hit
    unfold pyInsert at hit
    rcases (List.mem_insertIdx (pyInsertPos_le k a.list.length)).1 hit with rfl | hm
    · exact hx
    · exact h.2 _ hm

theorem arraySeq_sets : arraySeq.Sets ArrObj.Clean ArrObj.seen Item.handed (fun it => it.isData = true) := by
  intro a k x h hx
  have hd := set_inv h.1 k x hx
  simp only [ArrObj.seen, pySet_map, arraySeq]
  cases hl : pySet a.list k x with
  | none => rw [hl] at hd; exact hd
  | some l =>
    rw [hl] at hd
    obtain ⟨b, h1, h2, h3⟩ := hd
    refine ⟨b, h1, ⟨h2, ?_⟩, by rw [h3]⟩
    intro it hit
    rw [h3] at hit
    unfold pySet at hl
    cases hk : pyIndex k a.list.length with
    | none => rw [hk] at hl; simp at hl
    | some i =>
      rw [hk] at hl
      simp only [Option.map_some, Option.some.injEq] at hl
      rw [← hl] at hit
      rcases List.mem_or_eq_of_mem_set hit with hm | rfl
      · exact h.2 _ hm
      · exact hx

/-- one operation on an array -/
theorem arrOp_step {a : ArrObj} (h : a.Clean) (o : ArrOp) (hd : o.IsData) :
    match o.onList a.seen with
    | .ok l => ∃ b, o.run a = .ok b ∧ b.Clean ∧ b.seen = l
    | .error e => o.run a = .error e := by
  cases o with
  | seq o =>
    have hr := arraySeq_acts.run h o hd fun _ => arraySeq_sets
    simp only [ArrOp.onList, ArrOp.run]
    generalize o.onList Item.handed a.seen = x at hr ⊢
    cases x <;> exact hr
  | clear => exact ⟨_, rfl, ⟨⟨rfl, rfl⟩, by intro it hit; cases hit⟩, rfl⟩
  | addLine its indent comment ac nl =>
    have hall : (its.all fun i => !i.isNull && !i.losesItem) = true := by
      rw [List.all_eq_true]; intro it hit; simp [(hd it hit).1, (hd it hit).2]
    simp only [ArrOp.onList, ArrOp.run]
    rcases addLine_inv h.1 its indent comment ac nl hall with ⟨h1, h2⟩ | ⟨h1, b, h2, h3, h4⟩
    · rw [if_pos h1]; exact h2
    · rw [if_neg (by rw [h1]; decide)]
      refine ⟨b, h2, ⟨h3, ?_⟩, by simp only [ArrObj.seen]; rw [h4, List.map_append]⟩
      intro it hit
      rw [h4] at hit
      rcases List.mem_append.1 hit with hm | hm
      · exact h.2 _ hm
      · exact (List.mem_filter.1 hm).2

theorem arrAfter_clean {a : ArrObj} (h : a.Clean) (ops : List ArrOp) (hd : ∀ o ∈ ops, o.IsData) :
    (arrAfter a ops).Clean ∧ (arrAfter a ops).seen = arrListAfter a.seen ops := by
  induction ops generalizing a with
  | nil => exact ⟨h, rfl⟩
  | cons o r ih =>
    have hs := arrOp_step h o (hd o (by simp))
    have hr := fun o ho => hd o (List.mem_cons_of_mem _ ho)
    unfold arrAfter arrListAfter
    cases hl : o.onList a.seen with
    | ok l =>
      rw [hl] at hs
      obtain ⟨b, h1, h2, h3⟩ := hs
      rw [h1]
      have := ih h2 hr
      rw [h3] at this
      exact this
    | error e =>
      rw [hl] at hs
      simp only at hs
      rw [hs]
      exact ih h hr

theorem mkArray_clean (vs : List Item) : (mkArray vs).Clean :=
  ⟨mkArray_inv vs, fun _ hit => (List.mem_filter.1 hit).2⟩

/-- what the caller sees of an array made of the items `vs` -/
def seenOf (vs : List Item) : List Item := (vs.filter Item.isData).map Item.handed

/-- **C46, arrays.** For every array — parsed or built, `vs` are the items it is made of, white space, commas and
comments included — and every history of `insert`, `append`, `extend`, `+=`, assignment, `del`, `pop`, `remove`,
`reverse`, `clear` and `add_line` with any indices and any notion of equality: what the caller sees of the elements is
what a Python list driven by the same history holds, and the elements printed are these, in order. -/
theorem C46_array_is_a_list (vs : List Item) (ops : List ArrOp) (hd : ∀ o ∈ ops, o.IsData) :
    (arrAfter (mkArray vs) ops).list.map Item.handed = arrListAfter (seenOf vs) ops ∧
    (printed (arrAfter (mkArray vs) ops).groups).map Item.handed = arrListAfter (seenOf vs) ops := by
  obtain ⟨h1, h2⟩ := arrAfter_clean (mkArray_clean vs) ops hd
  exact ⟨h2, by rw [h1.1.elems]; exact h2⟩

/-- **C46, exceptions.** After any history a method raises exactly the exception it raises on the list. -/
theorem C46_array_raises (vs : List Item) (ops : List ArrOp) (hd : ∀ o ∈ ops, o.IsData) (o : ArrOp) (ho : o.IsData)
    (e : Err) :
    o.run (arrAfter (mkArray vs) ops) = .error e ↔ o.onList (arrListAfter (seenOf vs) ops) = .error e := by
  obtain ⟨h1, h2⟩ := arrAfter_clean (mkArray_clean vs) ops hd
  have hs := arrOp_step h1 o ho
  have h3 : (mkArray vs).seen = seenOf vs := rfl
  rw [h2, h3] at hs
  cases hl : o.onList (arrListAfter (seenOf vs) ops) with
  | ok l =>
    rw [hl] at hs
    obtain ⟨b, g1, _⟩ := hs
    rw [g1]
    constructor <;> intro h <;> cases h
  | error e' =>
    rw [hl] at hs
    simp only at hs
    rw [hs]
    constructor <;> intro h <;> cases h <;> rfl

/-- **C46, results.** After any history, with `l` the list driven by the same history: `a[k]` and `a.pop(k)` give the
element of the list or raise `IndexError`, `len`, `in`, `count` and `index` with any bounds give what they give on the list (or
`ValueError`), and iterating forwards and backwards gives its elements. -/
theorem C46_array_results (vs : List Item) (ops : List ArrOp) (hd : ∀ o ∈ ops, o.IsData) (l : List Item)
    (hl : l = arrListAfter (seenOf vs) ops) (eq : Item → Bool) :
    let a := arrAfter (mkArray vs) ops
    arraySeq.len a = l.length ∧
    (∀ k, (arraySeq.get a k).map Item.handed = orIndexError ((pyIndex k l.length).bind (l[·]?))) ∧
    (∀ k, ((arraySeq.pop a k).map fun r => r.2.handed) = orIndexError ((pyIndex k l.length).bind (l[·]?))) ∧
    arraySeq.contains a (fun v => eq v.handed) = .ok (l.any eq) ∧
    arraySeq.count a (fun v => eq v.handed) = .ok (l.countP eq) ∧
    (∀ start stop, arraySeq.index a (fun v => eq v.handed) start stop =
      match listIndex l eq start stop with
      | some i => .ok (i : Int)
      | none => .error .valueError) ∧
    (arraySeq.iter a).map (·.map Item.handed) = .ok l ∧
    (arraySeq.reversed a).map (·.map Item.handed) = .ok l.reverse := by
  intro a
  obtain ⟨h1, h2⟩ := arrAfter_clean (mkArray_clean vs) ops hd
  have h3 : l = a.seen := by rw [hl]; exact h2.symm
  rw [h3]
  have A := arraySeq_acts
  refine ⟨A.len a h1, ?_, ?_, A.contains h1 eq, A.count h1 eq, A.index h1 eq, ?_, ?_⟩
  · intro k
    have := A.get a k h1
    cases hk : pyIndex k a.seen.length with
    | none => rw [hk] at this; simp only at this; rw [this]; rfl
    | some i =>
      rw [hk] at this
      obtain ⟨v, e1, e2, _⟩ := this
      rw [e1]; simp only [Option.bind_some, e2]; rfl
  · intro k
    have := A.pop (s := a) h1 k
    cases hk : pyIndex k a.seen.length with
    | none => rw [hk] at this; simp only at this; rw [this]; rfl
    | some i =>
      rw [hk] at this
      obtain ⟨t, v, e1, _, _, e2, _⟩ := this
      rw [e1]; simp only [Option.bind_some, e2]; rfl
  · obtain ⟨ws, e1, e2⟩ := A.iter h1
    rw [e1, ← e2]; rfl
  · obtain ⟨ws, e1, e2⟩ := A.reversed h1
    rw [e1, ← e2]; rfl

/-! ## AoT -/

/-- what the caller sees of a table of an array: the object, with its content -/
def bareOf (p : Nat × Tbl) : Nat × Tbl := (p.1, p.2.bare)

/-- the methods on an array of tables: those of `SeqOp`, deletion of a slice, and `a.clear()` -/
inductive TabOp
  | seq (o : SeqOp (Nat × Tbl) (Nat × Tbl))
  | delSlice (s : PySlice)
  | clear

/-- no assignment to positions: `AoT.__setitem__` raises `NotImplementedError` -/
def TabOp.Allowed : TabOp → Prop
  | .seq o => o.assigns = false
  | _ => True

/-- the method on a Python `list` -/
def TabOp.onList (l : List (Nat × Tbl)) : TabOp → Except Err (List (Nat × Tbl))
  | .seq o => o.onList bareOf l
  | .delSlice s => match pyDelSlice l s with
    | some l' => .ok l'
    | none => .error .valueError
  | .clear => .ok []

/-- the method on an array of tables -/
def TabOp.run (a : AoTObj) : TabOp → Except Err AoTObj
  | .seq o => o.run aotSeq bareOf a
  | .delSlice s => a.delSlice s
  | .clear => aotSeq.clear a

/-- histories; an operation that raises is skipped -/
def tabListAfter : List (Nat × Tbl) → List TabOp → List (Nat × Tbl)
  | l, [] => l
  | l, o :: r => tabListAfter (match o.onList l with | .ok l' => l' | .error _ => l) r
@[inherit_doc tabListAfter]
def tabAfter : AoTObj → List TabOp → AoTObj
  | a, [] => a
  | a, o :: r => tabAfter (match o.run a with | .ok b => b | .error _ => a) r

theorem AoTObj.view_length {a : AoTObj} (h : a.Inv) : a.view.length = a.tables.length := by
  simp [AoTObj.view, h.len]

theorem aotSeq_acts : aotSeq.Acts AoTObj.Inv AoTObj.view bareOf (fun _ => True) where
  len a h := by rw [AoTObj.view_length h]; rfl
  get a k h := by
    rw [AoTObj.view_length h]
    simp only [aotSeq, AoTObj.getItem]
    cases hk : pyIndex k a.tables.length with
    | none => rfl
    | some i =>
      have hi := (pyIndex_some hk).1
      have hi' : i < a.ids.length := by rw [h.len]; exact hi
      simp only [List.getElem?_eq_getElem hi, List.getElem?_eq_getElem hi']
      exact ⟨_, rfl, by simp [AoTObj.view, bareOf, List.getElem?_zip_eq_some, hi, hi'], trivial⟩
  del a k h := by
    have hs := aot_step h (.del k)
    simp only [TOp.onList, TOp.onAoT] at hs
    rcases hs with ⟨h1, e, h2⟩ | ⟨l, b, h1, h2, h3, h4⟩
    · rw [h1]
      simp only [aotSeq]
      rw [h2]
      unfold AoTObj.delItem at h2
      split at h2
      · cases h2
      · cases h2; rfl
    · rw [h1]; exact ⟨b, h2, h3, h4⟩
  insert a k x h _ := by
    rcases aot_step h (.insert k x.1 x.2) with ⟨h1, _⟩ | ⟨l, b, h1, h2, h3, h4⟩
    · simp [TOp.onList] at h1
    · simp only [TOp.onList, Option.some.injEq] at h1
      exact ⟨b, h2, h3, by rw [h4, ← h1]; rfl⟩

theorem tabOp_step {a : AoTObj} (h : a.Inv) (o : TabOp) (ha : o.Allowed) :
    match o.onList a.view with
    | .ok l => ∃ b, o.run a = .ok b ∧ b.Inv ∧ b.view = l
    | .error e => o.run a = .error e := by
  cases o with
  | seq o =>
    have hr := aotSeq_acts.run h o (fun _ _ => trivial) fun hc => by
      rw [show o.assigns = false from ha] at hc; cases hc
    simp only [TabOp.onList, TabOp.run]
    generalize o.onList bareOf a.view = x at hr ⊢
    cases x <;> exact hr
  | delSlice s =>
    have hs := aot_step h (.delSlice s)
    simp only [TOp.onList, TOp.onAoT] at hs
    simp only [TabOp.onList, TabOp.run]
    rcases hs with ⟨h1, e, h2⟩ | ⟨l, b, h1, h2, h3, h4⟩
    · rw [h1]
      simp only
      rw [h2]
      unfold AoTObj.delSlice at h2
      split at h2
      · cases h2
      · cases h2; rfl
    · rw [h1]; exact ⟨b, h2, h3, h4⟩
  | clear => exact aotSeq_acts.clear h

theorem tabAfter_inv {a : AoTObj} (h : a.Inv) (ops : List TabOp) (ha : ∀ o ∈ ops, o.Allowed) :
    (tabAfter a ops).Inv ∧ (tabAfter a ops).view = tabListAfter a.view ops := by
  induction ops generalizing a with
  | nil => exact ⟨h, rfl⟩
  | cons o r ih =>
    have hs := tabOp_step h o (ha o (by simp))
    have hr := fun o ho => ha o (List.mem_cons_of_mem _ ho)
    unfold tabAfter tabListAfter
    cases hl : o.onList a.view with
    | ok l =>
      rw [hl] at hs
      obtain ⟨b, h1, h2, h3⟩ := hs
      rw [h1]
      have := ih h2 hr
      rw [h3] at this
      exact this
    | error e =>
      rw [hl] at hs
      simp only at hs
      rw [hs]
      exact ih h hr

/-- **C46, arrays of tables.** For every array of tables built from an empty one, and every history of `insert`,
`append`, `extend`, `+=`, `del` by index or slice, `pop`, `remove` and `clear`: the objects it holds, in order, with
their content (up to the header indentation that insertion may add) are those of a Python list driven by the same
history, the built-in list part holds the same objects, and a further method raises exactly the exception it raises on
the list. -/
theorem C46_aot_is_a_list (own : Trivia) (parsed : Bool) (ops : List TabOp) (ha : ∀ o ∈ ops, o.Allowed) :
    let a := tabAfter ⟨[], [], [], own, parsed⟩ ops
    a.view = tabListAfter [] ops ∧ a.shadow = (tabListAfter [] ops).map Prod.fst ∧
    ∀ (o : TabOp) (e : Err), o.Allowed → (o.run a = .error e ↔ o.onList (tabListAfter [] ops) = .error e) := by
  intro a
  obtain ⟨h1, h2⟩ := tabAfter_inv (a := ⟨[], [], [], own, parsed⟩) ⟨rfl, rfl⟩ ops ha
  have h3 : a.view = tabListAfter [] ops := h2
  refine ⟨h3, ?_, ?_⟩
  · rw [← h3, h1.shadow, AoTObj.view, List.map_fst_zip (by have := h1.len; simp only [List.length_map]; exact Nat.le_of_eq this)]
  · intro o e ho
    have hs := tabOp_step h1 o ho
    rw [show (tabAfter ⟨[], [], [], own, parsed⟩ ops).view = tabListAfter [] ops from h3] at hs
    cases hl : o.onList (tabListAfter [] ops) with
    | ok l =>
      rw [hl] at hs
      obtain ⟨b, g1, _⟩ := hs
      rw [show o.run a = _ from g1]
      constructor <;> intro h <;> cases h
    | error e' =>
      rw [hl] at hs
      simp only at hs
      rw [show o.run a = _ from hs]
      constructor <;> intro h <;> cases h <;> rfl

/-- **C46, results on arrays of tables.** -/
theorem C46_aot_results (own : Trivia) (parsed : Bool) (ops : List TabOp) (ha : ∀ o ∈ ops, o.Allowed)
    (l : List (Nat × Tbl)) (hl : l = tabListAfter [] ops) (eq : Nat × Tbl → Bool) :
    let a := tabAfter ⟨[], [], [], own, parsed⟩ ops
    aotSeq.len a = l.length ∧
    (∀ k, (aotSeq.get a k).map bareOf = orIndexError ((pyIndex k l.length).bind (l[·]?))) ∧
    (∀ k, ((aotSeq.pop a k).map fun r => bareOf r.2) = orIndexError ((pyIndex k l.length).bind (l[·]?))) ∧
    aotSeq.contains a (fun v => eq (bareOf v)) = .ok (l.any eq) ∧
    aotSeq.count a (fun v => eq (bareOf v)) = .ok (l.countP eq) ∧
    (∀ start stop, aotSeq.index a (fun v => eq (bareOf v)) start stop =
      match listIndex l eq start stop with
      | some i => .ok (i : Int)
      | none => .error .valueError) ∧
    (aotSeq.iter a).map (·.map bareOf) = .ok l ∧
    (aotSeq.reversed a).map (·.map bareOf) = .ok l.reverse := by
  intro a
  obtain ⟨h1, h2⟩ := tabAfter_inv (a := ⟨[], [], [], own, parsed⟩) ⟨rfl, rfl⟩ ops ha
  have h3 : l = a.view := by rw [hl]; exact h2.symm
  rw [h3]
  have A := aotSeq_acts
  refine ⟨A.len a h1, ?_, ?_, A.contains h1 eq, A.count h1 eq, A.index h1 eq, ?_, ?_⟩
  · intro k
    have := A.get a k h1
    cases hk : pyIndex k a.view.length with
    | none => rw [hk] at this; simp only at this; rw [this]; rfl
    | some i =>
      rw [hk] at this
      obtain ⟨v, e1, e2, _⟩ := this
      rw [e1]; simp only [Option.bind_some, e2]; rfl
  · intro k
    have := A.pop (s := a) h1 k
    cases hk : pyIndex k a.view.length with
    | none => rw [hk] at this; simp only at this; rw [this]; rfl
    | some i =>
      rw [hk] at this
      obtain ⟨t, v, e1, _, _, e2, _⟩ := this
      rw [e1]; simp only [Option.bind_some, e2]; rfl
  · obtain ⟨ws, e1, e2⟩ := A.iter h1
    rw [e1, ← e2]; rfl
  · obtain ⟨ws, e1, e2⟩ := A.reversed h1
    rw [e1, ← e2]; rfl

/-- **`reverse` is missing from arrays of tables**: with two tables or more it raises `NotImplementedError`. -/
theorem C46_counterexample_reverse (a : AoTObj) (h : a.Inv) (h2 : 2 ≤ a.tables.length) :
    aotSeq.reverse a = .error .notImplemented := by
  have hv := AoTObj.view_length h
  obtain ⟨r, hr⟩ : ∃ r, a.tables.length / 2 = r + 1 := ⟨a.tables.length / 2 - 1, by omega⟩
  obtain ⟨x, x1, _⟩ := aotSeq_acts.get_lt h (show a.tables.length - 1 < a.view.length by omega)
  obtain ⟨y, y1, _⟩ := aotSeq_acts.get_lt h (show 0 < a.view.length by omega)
  unfold SeqImpl.reverse
  rw [show aotSeq.len a = a.tables.length from rfl, hr]
  unfold SeqImpl.reverseLoop SeqImpl.swap
  rw [show ((a.tables.length : Int) - (0 : Nat) - 1) = ((a.tables.length - 1 : Nat) : Int) by omega, x1]
  simp only
  rw [y1]
  rfl

/-! ## what does not work -/

/-- the array `[2, 1, true]` -/
def array21 : ArrObj :=
  mkArray [intItem 2, .ws (t!",") false, .ws (t!" ") false, intItem 1, .ws (t!",") false, .ws (t!" ") false, .bool true {}]

/-- **`sort` and `*=` are `list`'s own**: they change the list and not the text. Here `[2, 1, true]` after a sort that
exchanges the first two elements still prints `[2, 1, true]`, and after `*= 2` six elements print as three. -/
theorem C46_counterexample_sort :
    ((array21.sort fun l => match l with | x :: y :: r => y :: x :: r | r => r).list.map Item.asString =
      [t!"1", t!"2", t!"true"] ∧
    (array21.sort fun l => match l with | x :: y :: r => y :: x :: r | r => r).asString {} false = t!"[2, 1, true]") ∧
    ((array21.imul 2).list.length = 6 ∧ (array21.imul 2).asString {} false = t!"[2, 1, true]") := by
  refine ⟨⟨?_, ?_⟩, ?_, ?_⟩ <;> decide +kernel

/-- **Slicing an array always raises**: `a[i:j]` asks a plain list for `is_boolean`, items.py:1331. -/
theorem C46_counterexample_slice (a : ArrObj) (s : PySlice) (is : List Int) (h : s.indices a.list.length = some is) :
    a.getSlice s = .error .attributeError := by
  unfold ArrObj.getSlice; rw [h]

/-! ## examples -/

/-- text after a history -/
def shownAfter (a : ArrObj) (ops : List ArrOp) : Str := (arrAfter a ops).asString {} false

example :
    let ops : List ArrOp := [.seq .reverse, .seq (.remove fun i => i.asString == t!"1"), .seq (.pop 7),
      .seq (.extend [intItem 8, intItem 9]), .seq (.pop (-2))]
    (∀ o ∈ ops, o.IsData) ∧ shownAfter array21 ops = t!"[true, 2, 9]" := by
  refine ⟨?_, ?_⟩
  · intro o ho
    simp at ho
    rcases ho with rfl | rfl | rfl | rfl | rfl <;> intro it hit <;> simp [SeqOp.vals] at hit
    rcases hit with rfl | rfl <;> rfl
  · decide +kernel

example :
    let ops : List TabOp := [.seq (.extend [(1, blankTable), (2, blankTable), (3, blankTable)]),
      .seq (.remove fun p => p.1 == 2), .seq (.pop (-1)), .seq (.pop 4), .seq (.append (5, blankTable))]
    (∀ o ∈ ops, o.Allowed) ∧ (tabAfter ⟨[], [], [], {}, false⟩ ops).shadow = [1, 5] ∧
    aotSeq.reverse (tabAfter ⟨[], [], [], {}, false⟩ ops) = .error .notImplemented := by
  refine ⟨?_, by decide +kernel, ?_⟩
  · intro o ho
    simp at ho
    rcases ho with rfl | rfl | rfl | rfl | rfl <;> rfl
  · exact C46_counterexample_reverse _ (tabAfter_inv (a := ⟨[], [], [], {}, false⟩) ⟨rfl, rfl⟩ _ (by
      intro o ho
      simp at ho
      rcases ho with rfl | rfl | rfl | rfl | rfl <;> rfl)).1 (by decide +kernel)

end Tomlkit
