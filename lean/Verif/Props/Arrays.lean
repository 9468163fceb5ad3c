import Verif.Proofs.Arrays
/-!
# C19, C20, C31: arrays and arrays of tables behave like lists
-/
namespace Tomlkit

/-! ## C19 -/

/-- one step: either both raise, or both succeed with the same list, and list and text stay in step -/
theorem step_inv {a : ArrObj} (h : a.Inv) (o : LOp) (hd : o.isData = true) :
    (o.onList a.list = none ∧ ∃ e, o.onArray a = .error e) ∨
    ∃ l b, o.onList a.list = some l ∧ o.onArray a = .ok b ∧ b.Inv ∧ b.list = l := by
  have hdel : ∀ k, (pyDel a.list k = none ∧ ∃ e, a.delItem k = .error e) ∨
      ∃ l b, pyDel a.list k = some l ∧ a.delItem k = .ok b ∧ b.Inv ∧ b.list = l := by
    intro k
    have := del_inv h k
    cases hl : pyDel a.list k with
    | none => rw [hl] at this; exact .inl ⟨rfl, _, this⟩
    | some l =>
      rw [hl] at this
      obtain ⟨b, h1, h2, h3⟩ := this
      exact .inr ⟨l, b, rfl, h1, h2, h3⟩
  cases o with
  | insert k it =>
    obtain ⟨b, h1, h2, h3⟩ := insert_inv h k it hd
    exact .inr ⟨_, b, rfl, h1, h2, h3⟩
  | append it =>
    obtain ⟨b, h1, h2, h3⟩ := append_inv h it hd
    exact .inr ⟨_, b, rfl, h1, h2, h3⟩
  | extend its =>
    obtain ⟨b, h1, h2, h3⟩ := extend_inv h its hd
    exact .inr ⟨_, b, rfl, h1, h2, h3⟩
  | set k it =>
    have := set_inv h k it hd
    simp only [LOp.onList, LOp.onArray]
    cases hl : pySet a.list k it with
    | none => rw [hl] at this; exact .inl ⟨rfl, _, this⟩
    | some l =>
      rw [hl] at this
      obtain ⟨b, h1, h2, h3⟩ := this
      exact .inr ⟨l, b, rfl, h1, h2, h3⟩
  | del k => exact hdel k
  | pop k => exact hdel k
  | clear => exact .inr ⟨_, _, rfl, rfl, ⟨rfl, rfl⟩, rfl⟩
  | addLine its indent comment ac nl =>
    simp only [LOp.onList, LOp.onArray]
    rcases addLine_inv h its indent comment ac nl hd with ⟨h1, h2⟩ | ⟨h1, b, h2, h3, h4⟩
    · rw [if_pos h1]; exact .inl ⟨rfl, _, h2⟩
    · rw [if_neg (by rw [h1]; decide)]; exact .inr ⟨_, b, rfl, h2, h3, h4⟩

theorem history_inv {a : ArrObj} (h : a.Inv) (ops : List LOp) (hd : ∀ o ∈ ops, o.isData = true) :
    (arrayHistory a ops).Inv ∧ (arrayHistory a ops).list = listHistory a.list ops := by
  induction ops generalizing a with
  | nil => exact ⟨h, rfl⟩
  | cons o r ih =>
    unfold arrayHistory listHistory
    rcases step_inv h o (hd o (by simp)) with ⟨h1, e, h2⟩ | ⟨l, b, h1, h2, h3, h4⟩
    · rw [h1, h2]
      exact ih h fun o ho => hd o (by simp [ho])
    · rw [h1, h2]
      have := ih h3 fun o ho => hd o (by simp [ho])
      rw [h4] at this
      exact this

/-- **C19.** For every array — parsed or built, `vs` are the items it is made of, white space, commas and comments
included — and every history of insertions, appends, extensions, assignments, deletions, pops and clears with any
indices: the list part equals a plain Python list driven by the same history, and the elements printed are exactly
that list, in order. -/
theorem C19_list_and_text_agree (vs : List Item) (ops : List LOp) (hd : ∀ o ∈ ops, o.isData = true) :
    (arrayHistory (mkArray vs) ops).list = listHistory (vs.filter Item.isData) ops ∧
    printed (arrayHistory (mkArray vs) ops).groups = listHistory (vs.filter Item.isData) ops := by
  obtain ⟨h1, h2⟩ := history_inv (mkArray_inv vs) ops hd
  have h3 : (mkArray vs).list = vs.filter Item.isData := rfl
  rw [h3] at h2
  exact ⟨h2, by rw [h1.elems, h2]⟩

/-- **C19, exceptions.** After any history an operation raises exactly when the same operation on a plain list
raises. -/
theorem C19_raises_like_list (vs : List Item) (ops : List LOp) (hd : ∀ o ∈ ops, o.isData = true) (o : LOp)
    (ho : o.isData = true) :
    (∃ e, o.onArray (arrayHistory (mkArray vs) ops) = .error e) ↔
      o.onList (listHistory (vs.filter Item.isData) ops) = none := by
  obtain ⟨h1, h2⟩ := history_inv (mkArray_inv vs) ops hd
  have h3 : (mkArray vs).list = vs.filter Item.isData := rfl
  rw [h3] at h2
  rw [← h2]
  rcases step_inv h1 o ho with ⟨g1, e, g2⟩ | ⟨l, b, g1, g2, _⟩
  · exact ⟨fun _ => g1, fun _ => ⟨e, g2⟩⟩
  · constructor
    · rintro ⟨e, he⟩; rw [g2] at he; cases he
    · intro h; rw [g1] at h; cases h

/-- a history on `[1, 2 ]` that inserts, deletes from the end and assigns -/
example :
    let vs : List Item := [intItem 1, .ws (t!",") false, .ws (t!" ") false, intItem 2, .ws (t!" ") false]
    let ops : List LOp := [.insert (-1) (intItem 7), .append (intItem 8), .del (-3), .set 0 (intItem 9), .pop 5]
    (∀ o ∈ ops, o.isData = true) ∧
    (arrayHistory (mkArray vs) ops).asString {} false = t!"[9, 2, 8 ]" := by
  refine ⟨?_, ?_⟩
  · intro o ho
    simp at ho
    rcases ho with rfl | rfl | rfl | rfl | rfl <;> rfl
  · decide +kernel

/-! ## C20 -/

theorem slice_agrees (s : PySlice) (n : Nat) (hstart : ∀ x, s.start = some x → 0 ≤ x)
    (hstop : ∀ x, s.stop = some x → 0 < x) (hstep : ∀ x, s.step = some x → 0 < x) :
    ∃ is, s.indices n = some is ∧ ∀ i : Nat, i < n → ((i : Int) ∈ codeSliceIndices s n ↔ (i : Int) ∈ is) := by
  have hst : 0 < s.step.getD 1 ∧ orElseInt s.step 1 = s.step.getD 1 := by
    cases h : s.step with
    | none => simp [orElseInt]
    | some x =>
      have := hstep x h
      simp [orElseInt]
      omega
  unfold PySlice.indices
  have h0 : ¬ s.step.getD 1 = 0 := by omega
  have h1 : ¬ s.step.getD 1 < 0 := by omega
  simp only [h0, if_false, h1]
  refine ⟨_, rfl, ?_⟩
  intro i hi
  unfold codeSliceIndices
  rw [hst.2, mem_pyRange hst.1, mem_pyRange hst.1]
  have ha : orElseInt s.start 0 = s.start.getD 0 := by
    cases h : s.start with
    | none => rfl
    | some x => simp [orElseInt]; omega
  have hb : orElseInt s.stop n = s.stop.getD n := by
    cases h : s.stop with
    | none => rfl
    | some x => have := hstop x h; simp [orElseInt]; omega
  rw [ha, hb]
  have hA : sliceEnd s.start 0 0 n n = min (s.start.getD 0) n := by
    cases h : s.start with
    | none => simp [sliceEnd]; omega
    | some x =>
      have := hstart x h
      simp only [sliceEnd, Option.getD_some]
      rw [if_neg (by omega)]
      split <;> omega
  have hB : sliceEnd s.stop n 0 n n = min (s.stop.getD n) n := by
    cases h : s.stop with
    | none => simp [sliceEnd]
    | some x =>
      have := hstop x h
      simp only [sliceEnd, Option.getD_some]
      rw [if_neg (by omega)]
      split <;> omega
  rw [hA, hB]
  have hpos : 0 ≤ s.start.getD 0 := by
    cases h : s.start with
    | none => simp
    | some x => exact hstart x h
  by_cases hlt : s.start.getD 0 ≤ n
  · have : min (s.start.getD 0) (n : Int) = s.start.getD 0 := by omega
    rw [this]
    constructor
    · rintro ⟨g1, g2, g3⟩; exact ⟨g1, by omega, g3⟩
    · rintro ⟨g1, g2, g3⟩; exact ⟨g1, by omega, g3⟩
  · have : min (s.start.getD 0) (n : Int) = n := by omega
    rw [this]
    constructor
    · rintro ⟨g1, g2, g3⟩; omega
    · rintro ⟨g1, g2, g3⟩; omega

/-- **C20 (partial).** After any history, deleting a slice whose start is absent or not negative, whose end is absent
or positive and whose step is absent or positive leaves the list that `del` leaves of a plain list, and exactly these
elements are printed. Missing: negative bounds, end zero and negative steps, for which the claim is false
(`C20_counterexample`). -/
theorem C20_slice_deletion_partial (vs : List Item) (ops : List LOp) (hd : ∀ o ∈ ops, o.isData = true) (s : PySlice)
    (hstart : ∀ x, s.start = some x → 0 ≤ x) (hstop : ∀ x, s.stop = some x → 0 < x)
    (hstep : ∀ x, s.step = some x → 0 < x) :
    ∃ l b, pyDelSlice (listHistory (vs.filter Item.isData) ops) s = some l ∧
      (arrayHistory (mkArray vs) ops).delSlice s = .ok b ∧ b.list = l ∧ printed b.groups = l := by
  obtain ⟨h1, h2⟩ := history_inv (mkArray_inv vs) ops hd
  have h3 : (mkArray vs).list = vs.filter Item.isData := rfl
  rw [h3] at h2
  rw [← h2]
  obtain ⟨is, hi, hag⟩ := slice_agrees s (arrayHistory (mkArray vs) ops).list.length hstart hstop hstep
  have hl : pyDelSlice (arrayHistory (mkArray vs) ops).list s =
      some (eraseIdxs (arrayHistory (mkArray vs) ops).list is) := by
    unfold pyDelSlice; rw [hi]; rfl
  obtain ⟨b, g1, g2, _, g4⟩ := delSlice_groups h1 s _ hl
  refine ⟨_, b, hl, g1, g2, ?_⟩
  rw [g4]
  exact eraseIdxs_congr _ _ _ hag

/-- the general form: whatever the slice, the list part is right; the text loses the positions the code computes -/
theorem C20_what_the_code_does (vs : List Item) (ops : List LOp) (hd : ∀ o ∈ ops, o.isData = true) (s : PySlice)
    (l : List Item) (hl : pyDelSlice (listHistory (vs.filter Item.isData) ops) s = some l) :
    ∃ b, (arrayHistory (mkArray vs) ops).delSlice s = .ok b ∧ b.list = l ∧
      printed b.groups = eraseIdxs (listHistory (vs.filter Item.isData) ops)
        (pyRange (orElseInt s.start 0)
          (orElseInt s.stop (listHistory (vs.filter Item.isData) ops).length) (orElseInt s.step 1)) := by
  obtain ⟨h1, h2⟩ := history_inv (mkArray_inv vs) ops hd
  have h3 : (mkArray vs).list = vs.filter Item.isData := rfl
  rw [h3] at h2
  rw [← h2] at hl ⊢
  obtain ⟨b, g1, g2, _, g4⟩ := delSlice_groups h1 s _ hl
  exact ⟨b, g1, g2, g4⟩

/-- the array `[1, 2, 3]` -/
def array123 : ArrObj :=
  mkArray [intItem 1, .ws (t!",") false, .ws (t!" ") false, intItem 2, .ws (t!",") false, .ws (t!" ") false, intItem 3]

/-- number of elements and text after a slice deletion -/
def sliceResult (a : ArrObj) (s : PySlice) : Option (Nat × Str) :=
  match a.delSlice s with
  | .ok b => some (b.list.length, b.asString {} false)
  | .error _ => none

/-- **C20 fails**: `del a[-1:]` takes one element from the list and all from the text; `del a[1:0]` takes none from
the list and two from the text; `del a[::-1]` takes all from the list and none from the text. -/
theorem C20_counterexample :
    sliceResult array123 { start := some (-1) } = some (2, t!"[]") ∧
    sliceResult array123 { start := some 1, stop := some 0 } = some (3, t!"[1]") ∧
    sliceResult array123 { step := some (-1) } = some (0, t!"[1, 2, 3]") := by
  refine ⟨?_, ?_, ?_⟩ <;> decide +kernel

example : sliceResult array123 { start := some 0, stop := some 2 } = some (1, t!"[3]") := by decide +kernel

/-- **C19 needs data**: a comment inserted as an element is counted by the index map but not by the list; the next
assignment overwrites the comment instead of the element. -/
theorem C19_comment_counterexample :
    (match (mkArray [intItem 1]).insert 0 (apiComment (t!"c")) with
      | .ok a => (match a.setItem 0 (intItem 5) with
        | .ok b => some (b.list.length, b.asString {} false)
        | .error _ => none)
      | .error _ => none) = some (1, t!"[5,1]") := by decide +kernel

/-! ## C31 -/

/-- a table without the indentation of its header (insertion may add a blank line or an indentation) -/
def Tbl.bare (t : Tbl) : Tbl := t.setTrivia { t.trivia with indent := [] }

/-- The operations of the claim on an array of tables; every inserted table is an object with an identity. -/
inductive TOp
  | insert (k : Int) (id : Nat) (v : Tbl)
  | append (id : Nat) (v : Tbl)
  | del (k : Int)
  | pop (k : Int)
  | delSlice (s : PySlice)

/-- what an operation does to a plain Python list of (identity, table without header indentation) -/
def TOp.onList (l : List (Nat × Tbl)) : TOp → Option (List (Nat × Tbl))
  | .insert k id v => some (pyInsert l k (id, v.bare))
  | .append id v => some (l ++ [(id, v.bare)])
  | .del k => pyDel l k
  | .pop k => pyDel l k
  | .delSlice s => pyDelSlice l s

/-- what an operation does to an array of tables -/
def TOp.onAoT (a : AoTObj) : TOp → Except Err AoTObj
  | .insert k id v => .ok (a.insert k id v)
  | .append id v => .ok (a.append id v)
  | .del k => a.delItem k
  | .pop k => a.delItem k
  | .delSlice s => a.delSlice s

/-- histories; an operation that raises is skipped -/
def tlistHistory : List (Nat × Tbl) → List TOp → List (Nat × Tbl)
  | l, [] => l
  | l, o :: r => tlistHistory ((o.onList l).getD l) r
@[inherit_doc tlistHistory]
def aotHistory : AoTObj → List TOp → AoTObj
  | a, [] => a
  | a, o :: r => aotHistory (match o.onAoT a with | .ok b => b | .error _ => a) r

/-- what an array of tables shows: the objects of its body with their content -/
def AoTObj.view (a : AoTObj) : List (Nat × Tbl) := a.ids.zip (a.tables.map Tbl.bare)

theorem clampIndex_eq (k : Int) (n : Nat) : clampIndex k n = pyInsertPos k n := by
  unfold clampIndex pyInsertPos
  simp only
  split <;> rename_i h
  · split
    · omega
    · split <;> omega
  · split <;> omega

theorem pyInsertPos_le (k : Int) (n : Nat) : pyInsertPos k n ≤ n := by
  unfold pyInsertPos; split <;> omega

theorem pyInsertPos_nat {i n : Nat} (h : i ≤ n) : pyInsertPos (i : Int) n = i := by
  unfold pyInsertPos; rw [if_neg (by omega)]; omega

@[simp] theorem Tbl.bare_setIndent (t : Tbl) (i : Str) : (t.setTrivia { t.trivia with indent := i }).bare = t.bare := by
  cases t; rfl
@[simp] theorem Tbl.bare_nlIndent (t : Tbl) : (nlIndent t).bare = t.bare := by
  unfold nlIndent
  split
  · rfl
  · exact Tbl.bare_setIndent t _

theorem map_modify_bare (l : List Tbl) (i : Nat) : (l.modify i nlIndent).map Tbl.bare = l.map Tbl.bare := by
  induction l generalizing i with
  | nil => simp
  | cons t r ih =>
    cases i with
    | zero => simp
    | succ i => simp [ih]

theorem map_insertIdx {α β : Type} (f : α → β) (l : List α) (i : Nat) (x : α) :
    (l.insertIdx i x).map f = (l.map f).insertIdx i (f x) := by
  induction l generalizing i with
  | nil => cases i <;> simp
  | cons y r ih => cases i <;> simp [ih]

theorem aotInsert_bare (own : Trivia) (parsed : Bool) (ts : List Tbl) (k : Int) (v : Tbl) :
    (aotInsert own parsed ts k v).map Tbl.bare = (ts.map Tbl.bare).insertIdx (clampIndex k ts.length) v.bare := by
  have hw : ∀ o : Option Str, (match o with
    | some ind => v.setTrivia { v.trivia with indent := insertIndent ind v.trivia.indent }
    | none => v).bare = v.bare := by
    intro o
    cases o with
    | none => rfl
    | some ind => exact Tbl.bare_setIndent v _
  unfold aotInsert
  simp only
  split
  · rw [map_insertIdx]; congr 1; exact hw _
  · rw [map_insertIdx]
    congr 1
    · split
      · exact map_modify_bare ts _
      · rfl
    · split
      · split
        · rw [Tbl.bare_nlIndent]; exact hw _
        · exact hw _
      · exact hw _

theorem zip_insertIdx {α β : Type} (a : List α) (b : List β) (i : Nat) (x : α) (y : β) (h : a.length = b.length) :
    (a.insertIdx i x).zip (b.insertIdx i y) = (a.zip b).insertIdx i (x, y) := by
  induction a generalizing b i with
  | nil =>
    have : b = [] := List.eq_nil_of_length_eq_zero h.symm
    subst this
    cases i <;> simp
  | cons p r ih =>
    cases b with
    | nil => simp at h
    | cons q s =>
      have hl : r.length = s.length := by simpa using h
      cases i with
      | zero => simp
      | succ i => simp [ih s i hl]

theorem zip_eraseIdx {α β : Type} (a : List α) (b : List β) (i : Nat) :
    (a.eraseIdx i).zip (b.eraseIdx i) = (a.zip b).eraseIdx i := by
  induction a generalizing b i with
  | nil => simp
  | cons p r ih =>
    cases b with
    | nil => simp
    | cons q s =>
      cases i with
      | zero => simp
      | succ i => simp [ih]

theorem eraseIdx_map' {α β : Type} (f : α → β) (l : List α) (i : Nat) : (l.eraseIdx i).map f = (l.map f).eraseIdx i := by
  induction l generalizing i with
  | nil => simp
  | cons y r ih => cases i <;> simp [ih]

theorem eraseIdxs_map {α β : Type} (f : α → β) (l : List α) (is : List Int) :
    (eraseIdxs l is).map f = eraseIdxs (l.map f) is := by
  unfold eraseIdxs
  have key : ∀ k, ((l.zipIdx k).filter fun p => !is.contains (p.2 : Int)).map (fun p => f p.1) =
      (((l.map f).zipIdx k).filter fun p => !is.contains (p.2 : Int)).map (·.1) := by
    induction l with
    | nil => simp
    | cons y r ih =>
      intro k
      simp only [List.map_cons, List.zipIdx_cons, List.filter_cons]
      split <;> simp only [List.map_cons, ih]
  rw [← key 0, List.map_map]
  rfl

theorem eraseIdxs_zip {α β : Type} (a : List α) (b : List β) (is : List Int) (h : a.length = b.length) :
    (eraseIdxs a is).zip (eraseIdxs b is) = eraseIdxs (a.zip b) is := by
  unfold eraseIdxs
  have key : ∀ k, (((a.zipIdx k).filter fun p => !is.contains (p.2 : Int)).map (·.1)).zip
      (((b.zipIdx k).filter fun p => !is.contains (p.2 : Int)).map (·.1)) =
      (((a.zip b).zipIdx k).filter fun p => !is.contains (p.2 : Int)).map (·.1) := by
    induction a generalizing b with
    | nil => simp
    | cons y r ih =>
      intro k
      cases b with
      | nil => simp at h
      | cons q s =>
        have hl : r.length = s.length := by simpa using h
        simp only [List.zip_cons_cons, List.zipIdx_cons, List.filter_cons]
        split <;> simp only [List.map_cons, List.zip_cons_cons, ih s hl]
  exact key 0

/-- list part and body hold the same objects -/
structure AoTObj.Inv (a : AoTObj) : Prop where
  len : a.ids.length = a.tables.length
  shadow : a.shadow = a.ids

theorem aot_step {a : AoTObj} (h : a.Inv) (o : TOp) :
    (o.onList a.view = none ∧ ∃ e, o.onAoT a = .error e) ∨
    ∃ l b, o.onList a.view = some l ∧ o.onAoT a = .ok b ∧ b.Inv ∧ b.view = l := by
  have hvl : a.view.length = a.tables.length := by simp [AoTObj.view, h.len]
  have hins : ∀ (k : Int) id v, (a.insert k id v).Inv ∧ (a.insert k id v).view = pyInsert a.view k (id, v.bare) := by
    intro k id v
    have hle := pyInsertPos_le k a.tables.length
    refine ⟨⟨?_, ?_⟩, ?_⟩
    · simp only [AoTObj.insert]
      have := congrArg List.length (aotInsert_bare a.own a.parsed a.tables k v)
      rw [clampIndex_eq] at this ⊢
      simp only [List.length_map] at this
      have e1 : ((a.tables.map Tbl.bare).insertIdx (pyInsertPos k a.tables.length) v.bare).length =
          (a.tables.map Tbl.bare).length + 1 := List.length_insertIdx_of_le_length (by simpa using hle) _
      have e2 : (a.ids.insertIdx (pyInsertPos k a.tables.length) id).length = a.ids.length + 1 :=
        List.length_insertIdx_of_le_length (by rw [h.len]; exact hle) _
      rw [this, e1, e2]
      simp [h.len]
    · simp only [AoTObj.insert]
      rw [h.shadow, clampIndex_eq]
      unfold pyInsert
      rw [pyInsertPos_nat (by rw [h.len]; omega)]
    · simp only [AoTObj.insert, AoTObj.view]
      rw [aotInsert_bare, clampIndex_eq, zip_insertIdx _ _ _ _ _ (by simp [h.len])]
      unfold pyInsert
      simp [h.len]
  have hdel : ∀ k, (pyDel a.view k = none ∧ ∃ e, a.delItem k = .error e) ∨
      ∃ l b, pyDel a.view k = some l ∧ a.delItem k = .ok b ∧ b.Inv ∧ b.view = l := by
    intro k
    unfold AoTObj.delItem pyDel
    rw [h.shadow, h.len, hvl]
    cases hk : pyIndex k a.tables.length with
    | none => exact .inl ⟨rfl, _, rfl⟩
    | some i =>
      have hi := (pyIndex_some hk).1
      refine .inr ⟨_, _, rfl, rfl, ⟨?_, rfl⟩, ?_⟩
      · simp only
        rw [List.length_eraseIdx_of_lt (by rw [h.len]; exact hi), List.length_eraseIdx_of_lt hi, h.len]
      · simp only [AoTObj.view]
        rw [eraseIdx_map', zip_eraseIdx]
  cases o with
  | insert k id v => exact .inr ⟨_, _, rfl, rfl, hins k id v⟩
  | append id v =>
    have := hins a.tables.length id v
    refine .inr ⟨_, _, rfl, rfl, this.1, ?_⟩
    rw [AoTObj.append, this.2, ← hvl, pyInsert_end]
  | del k => exact hdel k
  | pop k => exact hdel k
  | delSlice s =>
    simp only [TOp.onList, TOp.onAoT]
    unfold AoTObj.delSlice pyDelSlice
    rw [h.shadow, h.len, hvl]
    cases hs : s.indices a.tables.length with
    | none => exact .inl ⟨rfl, _, rfl⟩
    | some is =>
      have hz := eraseIdxs_zip a.ids (a.tables.map Tbl.bare) is (by simp [h.len])
      refine .inr ⟨_, _, rfl, rfl, ⟨?_, rfl⟩, ?_⟩
      · simp only
        unfold eraseIdxs
        simp only [List.length_map]
        have key : ∀ (p : List Nat) (q : List Tbl) (k : Nat), p.length = q.length →
            ((p.zipIdx k).filter fun x => !is.contains (x.2 : Int)).length =
            ((q.zipIdx k).filter fun x => !is.contains (x.2 : Int)).length := by
          intro p
          induction p with
          | nil => intro q k hq; have : q = [] := List.eq_nil_of_length_eq_zero hq.symm; subst this; rfl
          | cons y r ih =>
            intro q k hq
            cases q with
            | nil => simp at hq
            | cons z t =>
              have hq' : r.length = t.length := by simpa using hq
              simp only [List.zipIdx_cons, List.filter_cons]
              split <;> simp only [List.length_cons, ih t (k + 1) hq']
        exact key _ _ 0 h.len
      · simp only [AoTObj.view]
        rw [eraseIdxs_map, hz]

/-- **C31.** For every array of tables that a history of `insert`, `append`, `del` by index or slice and `pop` with any
indices has produced from an empty one: the objects it holds, in order, with their content (up to the header
indentation that insertion may add), are those of a plain Python list driven by the same history, and the built-in
list part holds exactly the same objects as the rendered body. -/
theorem C31_aot_is_a_list (own : Trivia) (parsed : Bool) (ops : List TOp) :
    (aotHistory ⟨[], [], [], own, parsed⟩ ops).view = tlistHistory [] ops ∧
    (aotHistory ⟨[], [], [], own, parsed⟩ ops).shadow = (tlistHistory [] ops).map (·.1) := by
  have key : ∀ (a : AoTObj), a.Inv → (aotHistory a ops).Inv ∧ (aotHistory a ops).view = tlistHistory a.view ops := by
    induction ops with
    | nil => intro a h; exact ⟨h, rfl⟩
    | cons o r ih =>
      intro a h
      unfold aotHistory tlistHistory
      rcases aot_step h o with ⟨h1, e, h2⟩ | ⟨l, b, h1, h2, h3, h4⟩
      · rw [h1, h2]; exact ih a h
      · rw [h1, h2]
        have := ih b h3
        rw [h4] at this
        exact this
  obtain ⟨h1, h2⟩ := key ⟨[], [], [], own, parsed⟩ ⟨rfl, rfl⟩
  refine ⟨h2, ?_⟩
  have h3 : (aotHistory ⟨[], [], [], own, parsed⟩ ops).view = tlistHistory [] ops := h2
  rw [← h3, h1.shadow, AoTObj.view, List.map_fst_zip (by simp [h1.len])]

/-- **C31, exceptions.** After any history an operation raises exactly when it raises on the plain list. -/
theorem C31_raises_like_list (own : Trivia) (parsed : Bool) (ops : List TOp) (o : TOp) :
    (∃ e, o.onAoT (aotHistory ⟨[], [], [], own, parsed⟩ ops) = .error e) ↔ o.onList (tlistHistory [] ops) = none := by
  have key : ∀ (a : AoTObj), a.Inv → (aotHistory a ops).Inv := by
    induction ops with
    | nil => intro a h; exact h
    | cons o r ih =>
      intro a h
      unfold aotHistory
      rcases aot_step h o with ⟨h1, e, h2⟩ | ⟨l, b, h1, h2, h3, h4⟩
      · rw [h2]; exact ih a h
      · rw [h2]; exact ih b h3
  rw [← (C31_aot_is_a_list own parsed ops).1]
  rcases aot_step (key ⟨[], [], [], own, parsed⟩ ⟨rfl, rfl⟩) o with ⟨g1, e, g2⟩ | ⟨l, b, g1, g2, _⟩
  · exact ⟨fun _ => g1, fun _ => ⟨e, g2⟩⟩
  · constructor
    · rintro ⟨e, he⟩; rw [g2] at he; cases he
    · intro h; rw [g1] at h; cases h

/-- a table with a blank header, for the example -/
def blankTable : Tbl := .mk (.empty true) {} true none none none

example :
    let ops : List TOp := [.append 1 blankTable, .insert (-5) 2 blankTable, .insert 9 3 blankTable, .del (-2), .pop 7,
      .insert (-1) 4 blankTable]
    (aotHistory ⟨[], [], [], {}, false⟩ ops).shadow = [2, 4, 3] ∧ (tlistHistory [] ops).map (·.1) = [2, 4, 3] := by
  decide +kernel

end Tomlkit
