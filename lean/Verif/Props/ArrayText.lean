import Verif.Spec.ArrayOps
import Verif.Props.Readback
import Verif.Props.Arrays
import Verif.Props.Sequence
/-!
# C21: an edited array is still an array literal
-/
namespace Tomlkit
open Tomlkit.Spec

/-- two lists related element by element -/
inductive All2 {α β : Type} (R : α → β → Prop) : List α → List β → Prop
  | nil : All2 R [] []
  | cons {a b l m} : R a b → All2 R l m → All2 R (a :: l) (b :: m)

theorem All2.length {α β : Type} {R : α → β → Prop} {l : List α} {m : List β} (h : All2 R l m) : l.length = m.length := by
  induction h <;> simp [*]

theorem All2.append {α β : Type} {R : α → β → Prop} {l l' : List α} {m m' : List β} (h : All2 R l m) (h' : All2 R l' m') :
    All2 R (l ++ l') (m ++ m') := by
  induction h with
  | nil => exact h'
  | cons h0 _ ih => exact .cons h0 ih

theorem All2.insertIdx {α β : Type} {R : α → β → Prop} {a : α} {b : β} (hab : R a b) : ∀ {l : List α} {m : List β} (_ : All2 R l m) (i : Nat),
    All2 R (l.insertIdx i a) (m.insertIdx i b)
  | _, _, h, 0 => by simpa using .cons hab h
  | _, _, .nil, i+1 => by simpa [List.insertIdx_of_length_lt] using .nil
  | _, _, .cons h0 h, i+1 => by simpa using .cons h0 (All2.insertIdx hab h i)

theorem All2.set {α β : Type} {R : α → β → Prop} {a : α} {b : β} (hab : R a b) : ∀ {l : List α} {m : List β} (_ : All2 R l m) (i : Nat),
    All2 R (l.set i a) (m.set i b)
  | _, _, .nil, i => by simpa using .nil
  | _, _, .cons h0 h, 0 => by simpa using .cons hab h
  | _, _, .cons h0 h, i+1 => by simpa using .cons h0 (All2.set hab h i)

theorem All2.eraseIdx {α β : Type} {R : α → β → Prop} : ∀ {l : List α} {m : List β} (_ : All2 R l m) (i : Nat),
    All2 R (l.eraseIdx i) (m.eraseIdx i)
  | _, _, .nil, i => by simpa using .nil
  | _, _, .cons h0 h, 0 => by simpa using h
  | _, _, .cons h0 h, i+1 => by simpa using .cons h0 (All2.eraseIdx h i)

theorem All2.imp {α β : Type} {R S : α → β → Prop} (h : ∀ {a b}, R a b → S a b) {l : List α} {m : List β} (hl : All2 R l m) : All2 S l m := by
  induction hl with
  | nil => exact .nil
  | cons h0 _ ih => exact .cons (h h0) ih

/-- the item is a literal of a value equal to `v` -/
def Stands (v : PyVal) (i : Item) : Prop := ∃ w, Lit False w i ∧ Same v w

theorem array_noTable {v : PyVal} {i : Item} (h : v.toItem false .array = .ok i) : i.isTableLike = false := by
  rcases v with _ | _ | _ | _ | _ | _ | _ | _ | l | l <;> unfold PyVal.toItem at h <;> try (cases h; rfl)
  · cases h
  · rw [if_neg (by simp)] at h
    rcases ht : l.toElems false with e | is <;> rw [ht] at h
    · cases h
    · exact buildArray_noTable h
  · dsimp only at h
    rcases ht : l.toChildren false .inline with e | cs <;> rw [ht] at h
    · cases h
    · rcases hb : buildInline (dictOrder false cs) with e | c <;> simp only [hb] at h <;> cases h
      rfl

theorem stands_item {v : PyVal} (hk : KeysOnce v) (hw : Writable v) : ∃ i, v.toItem false .array = .ok i ∧ Stands v i := by
  obtain ⟨i, w, h1, h2, h3⟩ := item_holds v hk (writable_noNone hw) false .array
  obtain ⟨w', hf⟩ := item_lit v hk hw false .array i h1 (array_noTable h1)
  rw [← holds_unique h2 hf.is.holds] at hf
  exact ⟨i, h1, w, hf.is, h3⟩

theorem stands_all {vs : List PyVal} (h : ∀ v ∈ vs, KeysOnce v ∧ Writable v) : ∃ is, convertAll vs = .ok is ∧ All2 Stands vs is := by
  induction vs with
  | nil => exact ⟨[], rfl, .nil⟩
  | cons v r ih =>
    obtain ⟨i, h1, h2⟩ := stands_item (h v (by simp)).1 (h v (by simp)).2
    obtain ⟨is, h3, h4⟩ := ih fun v hv => h v (by simp [hv])
    exact ⟨i :: is, by simp [convertAll, h1, h3, Except.map], .cons h2 h4⟩

theorem All2.right {vs : List PyVal} {is : List Item} (h : All2 Stands vs is) : ∀ i ∈ is, IsLit False i := by
  induction h with
  | nil => intro i hi; cases hi
  | cons h0 _ ih =>
    intro i hi
    rcases List.mem_cons.mp hi with rfl | hi
    · exact ⟨_, h0.choose_spec.1⟩
    · exact ih i hi

/-- the items of values that are neither booleans nor dicts -/
theorem keepsItem {v : PyVal} {i : Item} (h : v.toItem false .array = .ok i) (hb : ∀ b, v ≠ .bool b) (hd : ∀ l, v ≠ .dict l) :
    i.losesItem = false := by
  rcases v with _ | _ | _ | _ | _ | _ | _ | _ | l | l <;> unfold PyVal.toItem at h <;> try (cases h; rfl)
  · exact absurd rfl (hb _)
  · cases h
  · rw [if_neg (by simp)] at h
    rcases ht : l.toElems false with e | is <;> rw [ht] at h
    · cases h
    · unfold buildArray at h
      dsimp only at h
      rcases hx : (mkArray []).extend is with e | a <;> rw [hx] at h <;> cases h
      rfl
  · exact absurd rfl (hd _)

theorem keepsItems {vs : List PyVal} : ∀ {is : List Item}, convertAll vs = .ok is → (∀ v ∈ vs, (∀ b, v ≠ .bool b) ∧ ∀ l, v ≠ .dict l) →
    ∀ i ∈ is, i.losesItem = false := by
  induction vs with
  | nil => intro is h _ i hi; cases h; cases hi
  | cons v r ih =>
    intro is h hv i hi
    unfold convertAll at h
    rcases h1 : v.toItem false .array with e | i0 <;> rw [h1] at h
    · cases h
    rcases h2 : convertAll r with e | is0 <;> rw [h2] at h
    · cases h
    cases h
    rcases List.mem_cons.1 hi with rfl | hi
    · exact keepsItem h1 (hv v (by simp)).1 (hv v (by simp)).2
    · exact ih h2 (fun x hx => hv x (by simp [hx])) i hi

theorem isData_of_items {op : LOp} (h : ∀ i ∈ op.items, IsLit False i) (hl : ∀ its a b c d, op = .addLine its a b c d → ∀ i ∈ its, i.losesItem = false) :
    op.isData = true := by
  cases op with
  | insert k it => exact isLit_data it (h it (by simp [LOp.items]))
  | append it => exact isLit_data it (h it (by simp [LOp.items]))
  | set k it => exact isLit_data it (h it (by simp [LOp.items]))
  | extend its => exact List.all_eq_true.mpr fun i hi => isLit_data i (h i hi)
  | addLine its a b c d =>
    refine List.all_eq_true.mpr fun i hi => ?_
    have h1 := isLit_data i (h i hi)
    simp [Item.isData] at h1
    simp [h1.2, hl its a b c d rfl i hi]
  | _ => rfl

/-- conversion relates the operation on values with the one on items -/
theorem convert_rel {R : PyVal → Item → Prop} (hR : ∀ {v i}, Stands v i → R v i) {o : VOp} (ho : ∀ v ∈ o.vals, KeysOnce v ∧ Writable v) (hcov : o.Covered) (hrev : o ≠ .reverse) :
    ∃ op, o.convert = .ok op ∧ ((∀ i ∈ op.items, IsLit False i) ∧ op.isData = true ∧ op.PlainLine ∧ op.isBlank = o.isBlank) ∧
      ∀ l is, All2 R l is → (o.onList l = none ∧ op.onList is = none) ∨
        ∃ l' is', o.onList l = some l' ∧ op.onList is = some is' ∧ All2 R l' is' := by
  cases o with
  | insert k v =>
    obtain ⟨i, h1, h2⟩ := stands_item (ho v (by simp [VOp.vals])).1 (ho v (by simp [VOp.vals])).2
    refine ⟨.insert k i, by simp [VOp.convert, h1, Except.map], ?_, ?_⟩
    · have hlit : IsLit False i := ⟨_, h2.choose_spec.1⟩
      exact ⟨fun j hj => by simp [LOp.items] at hj; subst hj; exact hlit, isLit_data i hlit, trivial, rfl⟩
    · intro l is h
      refine .inr ⟨_, _, rfl, rfl, ?_⟩
      unfold pyInsert
      rw [h.length]
      exact h.insertIdx (hR h2) _
  | append v =>
    obtain ⟨i, h1, h2⟩ := stands_item (ho v (by simp [VOp.vals])).1 (ho v (by simp [VOp.vals])).2
    refine ⟨.append i, by simp [VOp.convert, h1, Except.map], ?_, ?_⟩
    · have hlit : IsLit False i := ⟨_, h2.choose_spec.1⟩
      exact ⟨fun j hj => by simp [LOp.items] at hj; subst hj; exact hlit, isLit_data i hlit, trivial, rfl⟩
    · intro l is h
      exact .inr ⟨_, _, rfl, rfl, h.append (.cons (hR h2) .nil)⟩
  | extend vs =>
    obtain ⟨is0, h1, h2⟩ := stands_all (vs := vs) ho
    refine ⟨.extend is0, by simp [VOp.convert, h1, Except.map], ?_, ?_⟩
    · exact ⟨fun j hj => h2.right j hj, List.all_eq_true.mpr fun i hi => isLit_data i (h2.right i hi), trivial, rfl⟩
    · intro l is h
      exact .inr ⟨_, _, rfl, rfl, h.append (h2.imp hR)⟩
  | addLine vs indent newline =>
    obtain ⟨is0, h1, h2⟩ := stands_all (vs := vs) ho
    have hk := keepsItems h1 hcov.1
    refine ⟨.addLine is0 indent none true newline, by simp [VOp.convert, h1, Except.map], ⟨fun j hj => h2.right j hj, ?_, ⟨rfl, rfl, hcov.2⟩, ?_⟩, ?_⟩
    · exact isData_of_items (fun j hj => h2.right j hj) fun its a b c d he i hi => by cases he; exact hk i hi
    · have := h2.length
      show is0.isEmpty = vs.isEmpty
      cases is0 <;> cases vs <;> first | rfl | cases this
    · intro l is h
      have hall : ∀ i ∈ is0, i.isData = true := fun i hi => isLit_data i (h2.right i hi)
      have hany : (is0.any fun i => i.isComment || (true && i.isWhitespace)) = false := by
        rw [List.any_eq_false]
        intro i hi
        have := hall i hi
        simp [Item.isData] at this
        simp [this]
      have hfil : is0.filter Item.isData = is0 := List.filter_eq_self.2 hall
      refine .inr ⟨_, _, rfl, ?_, h.append (h2.imp hR)⟩
      simp only [LOp.onList]
      rw [if_neg (by rw [hany]; decide), hfil]
  | set k v =>
    obtain ⟨i, h1, h2⟩ := stands_item (ho v (by simp [VOp.vals])).1 (ho v (by simp [VOp.vals])).2
    refine ⟨.set k i, by simp [VOp.convert, h1, Except.map], ?_, ?_⟩
    · have hlit : IsLit False i := ⟨_, h2.choose_spec.1⟩
      exact ⟨fun j hj => by simp [LOp.items] at hj; subst hj; exact hlit, isLit_data i hlit, trivial, rfl⟩
    · intro l is h
      simp only [VOp.onList, LOp.onList, pySet, h.length]
      cases pyIndex k is.length with
      | none => exact .inl ⟨rfl, rfl⟩
      | some j => exact .inr ⟨_, _, rfl, rfl, h.set (hR h2) j⟩
  | reverse => exact absurd rfl hrev
  | clear => exact ⟨.clear, rfl, ⟨(fun i hi => by cases hi), rfl, trivial, rfl⟩, fun l is h => .inr ⟨_, _, rfl, rfl, .nil⟩⟩
  | del k | pop k =>
    refine ⟨_, rfl, ⟨(fun i hi => by cases hi), rfl, trivial, rfl⟩, fun l is h => ?_⟩
    simp only [VOp.onList, LOp.onList, pyDel, h.length]
    cases pyIndex k is.length with
    | none => exact .inl ⟨rfl, rfl⟩
    | some j => exact .inr ⟨_, _, rfl, rfl, h.eraseIdx j⟩

/-! ### reverse -/

theorem All2.reverse {α β : Type} {R : α → β → Prop} {l : List α} {m : List β} (h : All2 R l m) : All2 R l.reverse m.reverse := by
  induction h with
  | nil => exact .nil
  | cons h0 _ ih => simpa using ih.append (.cons h0 .nil)

theorem All2.map_right {α β γ : Type} {R : α → γ → Prop} (f : β → γ) {l : List α} {m : List β} :
    All2 R l (m.map f) ↔ All2 (fun a b => R a (f b)) l m := by
  constructor
  · intro h
    induction m generalizing l with
    | nil => cases h; exact .nil
    | cons b m ih => cases h with | cons h0 h => exact .cons h0 (ih h)
  · intro h
    induction h with
    | nil => exact .nil
    | cons h0 _ ih => exact .cons h0 ih

/-- what holds of an item holds of what the caller gets, and the other way round -/
structure Handy (Q : Item → Prop) (R : PyVal → Item → Prop) : Prop where
  elem : ∀ i, Q i → Q i.handed
  rel : ∀ v i, R v i.handed ↔ R v i

theorem tidy_elems {Q : Item → Prop} (hQ : ∀ i, Q i → i.isData = true) {a : ArrObj} {z : Bool} (hi : a.Inv) (ht : a.Tidy Q z) :
    ∀ it ∈ a.list, Q it := by
  obtain ⟨vs, tl, hg, ht, _⟩ := ht
  rw [← hi.elems, hg, printed_append, printed_tail ht.tail, List.append_nil]
  exact (printed_vals hQ ht.vals).2

/-- on tidy arrays the five methods act as on a list, and leave the array tidy -/
theorem tidySeq_acts {Q : Item → Prop} (hQ : ∀ i, Q i → i.isData = true) (hh : ∀ i, Q i → Q i.handed) (z : Bool) :
    arraySeq.Acts (fun a => a.Inv ∧ a.Tidy Q z) ArrObj.seen Item.handed Q where
  len a _ := by simp [arraySeq, ArrObj.seen]
  get a k h := by
    simp only [ArrObj.seen, List.length_map, arraySeq, ArrObj.getItem]
    cases hk : pyIndex k a.list.length with
    | none => rfl
    | some i =>
      have hi := (pyIndex_some hk).1
      simp only [List.getElem?_eq_getElem hi]
      exact ⟨_, rfl, by simp [hi], hh _ (tidy_elems hQ h.1 h.2 _ (List.getElem_mem hi))⟩
  del a k h := by
    have hd := del_inv h.1 k
    simp only [ArrObj.seen, pyDel_map, arraySeq]
    cases hl : pyDel a.list k with
    | none => rw [hl] at hd; exact hd
    | some l =>
      rw [hl] at hd
      obtain ⟨b, h1, h2, h3⟩ := hd
      exact ⟨b, h1, ⟨h2, del_tidy hQ h.1 h.2 h1⟩, by rw [h3]⟩
  insert a k x h hx := by
    obtain ⟨b, h1, h2, h3⟩ := insert_inv h.1 k x (hQ x hx)
    exact ⟨b, h1, ⟨h2, insert_tidy hQ h.1 h.2 hx h1⟩, by simp only [ArrObj.seen]; rw [h3, pyInsert_map]⟩

theorem tidySeq_sets {Q : Item → Prop} (hQ : ∀ i, Q i → i.isData = true) (z : Bool) :
    arraySeq.Sets (fun a => a.Inv ∧ a.Tidy Q z) ArrObj.seen Item.handed Q := by
  intro a k x h hx
  have hd := set_inv h.1 k x (hQ x hx)
  simp only [ArrObj.seen, pySet_map, arraySeq]
  cases hl : pySet a.list k x with
  | none => rw [hl] at hd; exact hd
  | some l =>
    rw [hl] at hd
    obtain ⟨b, h1, h2, h3⟩ := hd
    exact ⟨b, h1, ⟨h2, setItem_tidy hQ h.1 h.2 hx h1⟩, by rw [h3]⟩

/-- `a.reverse()` on a tidy array -/
theorem reverse_tidy {Q : Item → Prop} (hQ : ∀ i, Q i → i.isData = true) {R : PyVal → Item → Prop} (hd : Handy Q R)
    {a : ArrObj} {l : List PyVal} {z : Bool} (hi : a.Inv) (ht : a.Tidy Q z) (hl : All2 R l a.list) :
    ∃ b, arraySeq.reverse a = .ok b ∧ b.Inv ∧ b.Tidy Q z ∧ All2 R l.reverse b.list := by
  obtain ⟨b, h1, ⟨h2, h3⟩, h4⟩ := (tidySeq_acts hQ hd.elem z).reverse (tidySeq_sets hQ z) ⟨hi, ht⟩
  refine ⟨b, h1, h2, h3, ?_⟩
  have h5 : All2 R l a.seen := (All2.map_right _).2 (hl.imp fun h => (hd.rel _ _).2 h)
  have h6 : All2 R l.reverse b.seen := h4 ▸ h5.reverse
  exact ((All2.map_right _).1 h6).imp fun h => (hd.rel _ _).1 h

theorem holds_handed (w : PyVal) (i : Item) : Holds w i.handed ↔ Holds w i := by
  cases i <;> first | exact Iff.rfl | (cases w <;> simp [Item.handed, Holds, dictCont])

theorem lit_handed (w : PyVal) (i : Item) : Lit False w i.handed ↔ Lit False w i := by
  have ht : i.handed.isTableLike = i.isTableLike := by cases i <;> rfl
  constructor
  · intro h; exact ⟨(holds_handed _ _).1 h.holds, Item.handed_text i ▸ h.reads, ht ▸ h.tl⟩
  · intro h; exact ⟨(holds_handed _ _).2 h.holds, (Item.handed_text i).symm ▸ h.reads, ht.symm ▸ h.tl⟩

theorem handy_lit : Handy (IsLit False) Stands where
  elem := fun i ⟨w, h⟩ => ⟨w, (lit_handed w i).2 h⟩
  rel := fun v i => ⟨fun ⟨w, h, h'⟩ => ⟨w, (lit_handed w i).1 h, h'⟩, fun ⟨w, h, h'⟩ => ⟨w, (lit_handed w i).2 h, h'⟩⟩

/-- at most one line without values -/
def OneBlankLine (ops : List VOp) : Prop := (ops.filter VOp.isBlank).length ≤ 1

theorem edits_tidy {Q : Item → Prop} (hQ : ∀ i, Q i → i.isData = true) (hlit : ∀ i, IsLit False i → Q i) {R : PyVal → Item → Prop}
    (hR : ∀ {v i}, Stands v i → R v i) (hdy : Handy Q R) {a : ArrObj} {l : List PyVal} {z : Bool} (hi : a.Inv) (ht : a.Tidy Q z) (hl : All2 R l a.list) (ops : List VOp)
    (ho : ∀ o ∈ ops, (∀ v ∈ o.vals, KeysOnce v ∧ Writable v) ∧ o.Covered) (hone : OneBlankLine ops)
    (hz : z = false → ∀ o ∈ ops, o.isBlank = false) :
    (arrayEdits a ops).Inv ∧ (∃ z', (arrayEdits a ops).Tidy Q z') ∧ All2 R (vlistHistory l ops) (arrayEdits a ops).list := by
  induction ops generalizing a l z with
  | nil => exact ⟨hi, ⟨z, ht⟩, hl⟩
  | cons o r ih =>
    unfold arrayEdits vlistHistory
    have hr := fun o ho' => ho o (List.mem_cons_of_mem _ ho')
    have honer : OneBlankLine r := by
      unfold OneBlankLine at hone ⊢
      rw [List.filter_cons] at hone
      split at hone
      · rw [List.length_cons] at hone; omega
      · exact hone
    by_cases hrev : o = .reverse
    · subst hrev
      obtain ⟨b, k1, k2, k3, k4⟩ := reverse_tidy hQ hdy hi ht hl
      have hb : VOp.onArray a .reverse = .ok b := k1
      rw [hb]
      exact ih k2 k3 k4 hr honer fun h o' ho' => hz h o' (by simp [ho'])
    obtain ⟨op, h1, ⟨h2, h2d, h2l, h2b⟩, h3⟩ := convert_rel hR (ho o (by simp)).1 (ho o (by simp)).2 hrev
    have hon : VOp.onArray a o = op.onArray a := by
      unfold VOp.onArray
      split
      · exact absurd rfl hrev
      · rw [h1]
    rw [hon]
    rcases h3 _ _ hl with ⟨g1, g2⟩ | ⟨l', is', g1, g2, g3⟩
    · rcases step_inv hi op h2d with ⟨_, e, k2⟩ | ⟨m, b, k1, _⟩
      · rw [k2, g1]; exact ih hi ht hl hr honer fun h o' ho' => hz h o' (by simp [ho'])
      · rw [g2] at k1; cases k1
    · rcases step_inv hi op h2d with ⟨k1, _⟩ | ⟨m, b, k1, k2, k3, k4⟩
      · rw [g2] at k1; cases k1
      · rw [g2] at k1; cases k1
        rw [k2, g1]
        refine ih k3 (op_tidy hQ hi ht (fun i hi => hlit i (h2 i hi)) h2l (fun hb => ?_) k2) (k4 ▸ g3) hr honer ?_
        · cases z with
          | true => rfl
          | false =>
            have := hz rfl o (by simp)
            rw [h2b, this] at hb; cases hb
        · intro hz' o' ho'
          rw [h2b] at hz'
          cases hzz : z with
          | false => exact hz hzz o' (by simp [ho'])
          | true =>
            rw [hzz, Bool.true_and] at hz'
            have hob : o.isBlank = true := by simpa using hz'
            unfold OneBlankLine at hone
            rw [List.filter_cons_of_pos hob, List.length_cons] at hone
            have : r.filter VOp.isBlank = [] := List.eq_nil_of_length_eq_zero (by omega)
            rw [List.filter_eq_nil_iff] at this
            simpa using this o' ho'

theorem all2_same {l : List PyVal} {is : List Item} (h : All2 Stands l is) : ∀ {l'}, HoldsAll l' is → SameAll l l' := by
  induction h with
  | nil => intro l' hl; cases l' with
    | nil => unfold SameAll; rfl
    | cons => unfold HoldsAll at hl; simp at hl
  | cons h0 _ ih =>
    intro l' hl
    cases l' with
    | nil => unfold HoldsAll at hl; cases hl
    | cons w r =>
      unfold HoldsAll at hl
      obtain ⟨i, r', he, h1, h2⟩ := hl
      cases he
      obtain ⟨w', k1, k2⟩ := h0
      rw [holds_unique k1.holds h1] at k2
      unfold SameAll
      exact ⟨w, r, rfl, k2, ih h2⟩

/-- the result of a history on an array whose groups are tidy -/
theorem edits_read {a : ArrObj} {l : List PyVal} (hi : a.Inv) (ht : a.Tidy (IsLit False) true) (hl : All2 Stands l a.list) (ops : List VOp)
    (ho : ∀ o ∈ ops, (∀ v ∈ o.vals, KeysOnce v ∧ Writable v) ∧ o.Covered) (hone : OneBlankLine ops) (t : Trivia) (ml : Bool) (hind : ∀ c ∈ t.indent, isWs c = true) :
    ∃ i' w, apiValue ((arrayEdits a ops).asString t ml) = .ok i' ∧ (∃ n0, ∀ n ≥ n0, i'.unwrap n = .ok w) ∧
      Same (.list (vlistHistory l ops)) w := by
  obtain ⟨h1, ⟨_, vs, tl, h2, h2', _⟩, h3⟩ := edits_tidy isLit_data (fun _ h => h) (fun h => h) handy_lit hi ht hl ops ho hone (fun h => by cases h)
  obtain ⟨m, h4, h5⟩ := tidy_lit h2' (fun h => h.elim) t ml hind
  have hp : printed (vs ++ tl) = printed vs := by rw [printed_append, printed_tail h2'.tail, List.append_nil]
  have h6 : HoldsAll m (arrayEdits a ops).list := by rw [← h1.elems, h2, hp]; exact h4
  obtain ⟨i', e1, e2⟩ := apiValue_reads h5.reads
  refine ⟨i', .list m, ?_, means_unwrap e2, ?_⟩
  · unfold ArrObj.asString; rw [h2]; exact e1
  · unfold Same
    exact ⟨m, rfl, all2_same h3 h6⟩

/-- **C21, for an array made by the API** (`array()`, `item([...])`): after any history of insertions, appends,
extensions, assignments, deletions, pops, clears, reversals and `add_line`s (without comments; at most one of them without values) with
any values and any indices, on one line or with `multiline(True)`, the text of the array is read by `value()` as an array that unwraps to the plain Python list driven by
the same history. -/
theorem C21_edited_array_partial (ops : List VOp) (ho : ∀ o ∈ ops, (∀ v ∈ o.vals, KeysOnce v ∧ Writable v) ∧ o.Covered)
    (hone : OneBlankLine ops) (t : Trivia) (ml : Bool) (hind : ∀ c ∈ t.indent, isWs c = true) :
    ∃ i' w, apiValue ((arrayEdits (mkArray []) ops).asString t ml) = .ok i' ∧ (∃ n0, ∀ n ≥ n0, i'.unwrap n = .ok w) ∧
      Same (.list (vlistHistory [] ops)) w :=
  edits_read (mkArray_inv []) (mkArray_tidy (IsLit False)) .nil ops ho hone t ml hind


/-- a history with negative indices, a nested list and a dict, and two lines -/
def sampleEdits : List VOp := [.extend [.int 1, .list [.bool true]], .insert (-1) (.str (t!"a\nb")), .set 0 (.dict [.mk (t!"k k") (.int 2)]),
  .append (.int 5), .del 1, .addLine [.int 7, .str (t!"x")] (t!"  ") true, .addLine [] [] true, .addLine [.list []] (t!"  ") true, .append (.int 8), .pop (-7),
  .append (.bool false), .reverse]

theorem sampleEdits_ok : ∀ o ∈ sampleEdits, (∀ v ∈ o.vals, KeysOnce v ∧ Writable v) ∧ o.Covered := by
  simp [sampleEdits, VOp.vals, VOp.Covered, KeysOnce, KeysOnceAll, KeysOnceIn, KeysOncePair, Writable, Throughout, ThroughoutAll, ThroughoutIn,
    ThroughoutPair, Proper, isWs, isSpaces]

set_option maxRecDepth 10000 in
example : (arrayEdits (mkArray []) sampleEdits).asString {} false =
    t!"[false, 8,\n  [], \"x\",\n  7,\n  5,\n  [true],\n]" := by decide +kernel

example := C21_edited_array_partial sampleEdits sampleEdits_ok (by unfold OneBlankLine; decide) {} false (fun _ hc => by cases hc)

set_option maxRecDepth 10000 in
/-- With two lines without values C21 is false: `a.add_line(1); a.add_line(indent=""); a.add_line(indent=""); a.append(2)` puts a comma after
the white space, and the text is refused. -/
theorem C21_counterexample_addLine :
    let a := arrayEdits (mkArray []) [.addLine [.int 1] [32] true, .addLine [] [] true, .addLine [] [] true, .append (.int 2)]
    a.asString {} false = t!"[\n 1,\n,\n2\n]" ∧ (apiValue (a.asString {} false)).toOption.isNone = true := by
  decide +kernel

/-- The text of a parsed array after a history, and the number of elements that the text is read back with (`none`: it is
refused). -/
def editedText (txt : Str) (ops : List LOp) : Option (Str × Nat × Option Nat) :=
  match apiValue txt with
  | .ok (.array gs t ml) =>
    let a := arrayHistory ⟨printed gs, gs, reindex gs⟩ ops
    some (a.asString t ml, a.list.length, match apiValue (a.asString t ml) with
      | .ok (.array gs' _ _) => some (printed gs').length
      | _ => none)
  | _ => none

set_option maxRecDepth 10000 in
/-- **C21 fails for parsed arrays with comments or with blanks before commas**: a new last element disappears inside a
comment; deleting an element makes a comment swallow the closing bracket; deleting an element leaves the comma that
stands behind a blank; a comment line behind the last element hides the missing comma. -/
theorem C21_counterexample :
    editedText (t!"[1, 2, # c\n]") [.append (intItem 3)] = some (t!"[1, 2, # c 3,\n]", 3, some 2) ∧
    editedText (t!"[1, # c\n 2]") [.del 1] = some (t!"[1 # c]", 1, none) ∧
    editedText (t!"[1 , 2]") [.del 0] = some (t!"[, 2]", 1, none) ∧
    editedText (t!"[\n 1\n # k\n]") [.append (intItem 3)] = some (t!"[\n 1\n # k\n 3\n]", 2, none) := by
  refine ⟨?_, ?_, ?_, ?_⟩ <;> decide +kernel

set_option maxRecDepth 10000 in
/-- in the layout with one element per line the same operations work -/
example : editedText (t!"[\n 1, # c\n 2, # d\n]") [.append (intItem 3), .del 0] = some (t!"[\n 2, # d\n 3,\n]", 2, some 2) := by
  decide +kernel

end Tomlkit
