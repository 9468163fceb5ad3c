import Verif.Proofs.Tidy
import Verif.Proofs.ReadInline
/-!
# The text of tidy arrays
-/
namespace Tomlkit
open _root_.Spec Tomlkit.Spec

variable {q : Prop}

/-- An item that holds the value and whose text is read back as that value, in an array, an inline table or a line; if `q`, with nothing lost. -/
structure Lit (q : Prop) (w : PyVal) (i : Item) : Prop where
  holds : Holds w i
  reads : ReadsAs q i.asString w
  tl : i.isTableLike = false

theorem Lit.isData {w : PyVal} {i : Item} (h : Lit q w i) : i.isData = true := by
  simp [Item.isData, holds_kind h.holds]

/-- a literal of some value -/
def IsLit (q : Prop) (i : Item) : Prop := ∃ w, Lit q w i

theorem isLit_data (i : Item) (h : IsLit q i) : i.isData = true := by obtain ⟨w, h⟩ := h; exact h.isData

theorem blank_ws {b : Str} (h : Blank b) : ∀ c ∈ b, isWs c = true := fun c hc => by rw [h c hc]; rfl

theorem ArrText.addWs {p : Bool} {s t : Str} {l : List PyVal} (hs : ∀ c ∈ s, isWs c = true) (h : ArrText q p t l) : ArrText q p (s ++ t) l := by
  induction s with
  | nil => exact h
  | cons c s ih => exact .ws p (hs c (by simp)) (ih fun x hx => hs x (by simp [hx]))

/-- an element in front of white space and a bracket or comma -/
theorem ArrText.elemWs {txt s t : Str} {w : PyVal} {l : List PyVal} (hr : ReadsAs q txt w) (hs : ∀ c ∈ s, isWs c = true) (hq : q → s = [])
    (ht : DateEnds t) (htne : t ≠ []) (h : ArrText q true t l) : ArrText q false (txt ++ (s ++ t)) (w :: l) := by
  have hb : ∀ s : Str, (∀ c ∈ s, isWs c = true) → ∃ b r, s = b ++ r ∧ Blank b ∧ DateEnds (r ++ t) ∧ ∀ c ∈ r, isWs c = true := by
    intro s
    induction s with
    | nil => intro _; exact ⟨[], [], rfl, Blank.nil, ht, fun c hc => by cases hc⟩
    | cons c s ih =>
      intro hs
      obtain ⟨b, r, rfl, h1, h2, h3⟩ := ih fun x hx => hs x (by simp [hx])
      by_cases hc : c = 32
      · refine ⟨c :: b, r, rfl, fun x hx => ?_, h2, h3⟩
        rcases List.mem_cons.1 hx with rfl | hx
        · exact hc
        · exact h1 x hx
      · refine ⟨[], c :: (b ++ r), rfl, Blank.nil, .inr ⟨c, (b ++ r) ++ t, rfl, ?_⟩, hs⟩
        have := hs c (by simp)
        simp only [isWs, isSpaces, isNl, Bool.or_eq_true, beq_iff_eq] at this
        simp only [isDateEnd, Bool.or_eq_true, beq_iff_eq]
        omega
  obtain ⟨b, r, rfl, h1, h2, h3⟩ := hb s hs
  have : txt ++ (b ++ r ++ t) = txt ++ (b ++ (r ++ t)) := by simp
  rw [this]
  exact .elem hr h1 (fun h => (List.append_eq_nil_iff.1 (hq h)).1) h2 (ArrText.addWs (blank_ws h1) (ArrText.addWs h3 h))

theorem optStr_ws {i : Option Str} (h : WsOpt i) : ∀ c ∈ optStr i, isWs c = true := by
  cases i with
  | none => intro c hc; cases hc
  | some s => exact h s rfl

theorem tail_text {tl : List AGroup} (h : TailOk tl) : ∃ s, groupsStr tl = s ∧ ∀ c ∈ s, isWs c = true := by
  rcases h with rfl | ⟨i, hi, rfl⟩
  · exact ⟨[], rfl, fun c hc => by cases hc⟩
  · refine ⟨optStr i, ?_, optStr_ws hi⟩
    simp [groupsStr, AGroup.asString, optStr, optComment]

theorem dateEnds_cons {c : Chr} (h : isDateEnd c = true) (r : Str) : DateEnds (c :: r) := .inr ⟨c, r, rfl, h⟩

/-- the text of a tidy array reads as its elements -/
theorem tidy_text {tl : List AGroup} (htl : TailOk tl) (hq : q → tl = []) : ∀ {vs : List AGroup}, (∀ g ∈ vs, ValOk (IsLit q) g) → Commas vs →
    ∃ l, HoldsAll l (printed vs) ∧ ArrText q false (groupsStr (vs ++ tl) ++ [93]) l
  | [], _, _ => by
    obtain ⟨s, h1, h2⟩ := tail_text htl
    refine ⟨[], by simp [HoldsAll, printed], ?_⟩
    rw [List.nil_append, h1]
    exact ArrText.addWs h2 (.close false)
  | g :: r, hv, hc => by
    obtain ⟨l, h1, h2⟩ := tidy_text htl hq (vs := r) (fun x hx => hv x (by simp [hx])) hc.2
    obtain ⟨i, v, c, rfl, hi, hcc, w, hw⟩ := hv g (by simp)
    have hd := hw.isData
    simp [Item.isData] at hd
    refine ⟨w :: l, ?_, ?_⟩
    · rw [HoldsAll]
      exact ⟨v, printed r, by simp [printed, hd.2], hw.holds, h1⟩
    · rw [List.cons_append, groupsStr, AGroup.asString, optComment, List.append_nil, List.append_assoc, List.append_assoc]
      refine ArrText.addWs (optStr_ws hi) ?_
      rw [List.append_assoc]
      rcases hcc with rfl | rfl
      · -- the last one
        have hr : r = [] := by
          rcases r with _ | ⟨g', r⟩
          · rfl
          · have := hc.1 (by simp)
            cases this
        subst hr
        obtain ⟨s, t1, t2⟩ := tail_text htl
        have hl : l = [] := by
          rcases l with _ | _
          · rfl
          · rw [HoldsAll] at h1
            obtain ⟨_, _, h0, _⟩ := h1
            cases h0
        subst hl
        rw [optStr, List.nil_append, List.nil_append, t1]
        exact ArrText.elemWs hw.reads t2 (fun h => by rw [← t1, hq h]; rfl) (dateEnds_cons rfl _) (by simp) (.close true)
      · rw [optStr]
        exact .elem (b := []) hw.reads Blank.nil (fun _ => rfl) (dateEnds_cons rfl _) (.comma h2)

theorem multi_tail {tl : List AGroup} (h : TailOk tl) (ind : Str) : groupsMulti ind tl = [] := by
  rcases h with rfl | ⟨i, hi, rfl⟩
  · rfl
  · simp [groupsMulti, AGroup.multiString]

theorem tidy_multi {tl : List AGroup} (htl : TailOk tl) {ind : Str} (hind : ∀ c ∈ ind, isWs c = true) : ∀ {vs : List AGroup},
    (∀ g ∈ vs, ValOk (IsLit q) g) →
    ∃ l, HoldsAll l (printed vs) ∧ ArrText q false (groupsMulti ind (vs ++ tl) ++ (ind ++ [93])) l
  | [], _ => by
    refine ⟨[], by simp [HoldsAll, printed], ?_⟩
    rw [List.nil_append, multi_tail htl, List.nil_append]
    exact ArrText.addWs hind (.close false)
  | g :: r, hv => by
    obtain ⟨l, h1, h2⟩ := tidy_multi htl hind (vs := r) (fun x hx => hv x (by simp [hx]))
    obtain ⟨i, v, c, rfl, hi, hcc, w, hw⟩ := hv g (by simp)
    have hd := hw.isData
    simp [Item.isData] at hd
    refine ⟨w :: l, ?_, ?_⟩
    · rw [HoldsAll]
      exact ⟨v, printed r, by simp [printed, hd.2], hw.holds, h1⟩
    · rw [List.cons_append, groupsMulti, AGroup.multiString, hd.2]
      simp only [Bool.false_eq_true, if_false, optComment, List.nil_append, List.append_assoc]
      refine ArrText.addWs hind (ArrText.addWs (by decide) ?_)
      exact .elem (b := []) hw.reads Blank.nil (fun _ => rfl) (dateEnds_cons rfl _) (.comma (.ws false rfl h2))

/-- a tidy array is a literal of the list of its elements -/
theorem tidy_lit {vs tl : List AGroup} (h : Tidy (IsLit q) vs tl) (hq : q → tl = []) (t : Trivia) (ml : Bool) (ht : ∀ c ∈ t.indent, isWs c = true) :
    ∃ l, HoldsAll l (printed vs) ∧ Lit q (.list l) (.array (vs ++ tl) t ml) := by
  by_cases hm : (!ml || (vs ++ tl).isEmpty) = true
  · obtain ⟨l, h1, h2⟩ := tidy_text h.tail hq h.vals h.commas
    refine ⟨l, h1, ?_, ?_, rfl⟩
    · unfold Holds
      exact .inl ⟨_, _, _, rfl, by rw [printed_append, printed_tail h.tail, List.append_nil]; exact h1⟩
    · rw [Item.asString, if_pos hm]
      exact reads_array h2
  · obtain ⟨l, h1, h2⟩ := tidy_multi h.tail ht h.vals
    refine ⟨l, h1, ?_, ?_, rfl⟩
    · unfold Holds
      exact .inl ⟨_, _, _, rfl, by rw [printed_append, printed_tail h.tail, List.append_nil]; exact h1⟩
    · rw [Item.asString, if_neg hm]
      exact reads_array (.ws false rfl h2)

/-- an array built from literals -/
theorem buildArray_lit {is : List Item} (h : ∀ i ∈ is, IsLit q i) : ∃ i l, buildArray is = .ok i ∧ HoldsAll l is ∧ Lit q (.list l) i := by
  obtain ⟨b, h1, h2, h3⟩ := extend_inv (mkArray_inv []) is (by
    rw [List.all_eq_true]
    exact fun i hi => isLit_data i (h i hi))
  obtain ⟨vs, tl, g1, g2, g3⟩ := extend_tidy isLit_data (mkArray_inv []) (mkArray_tidy (IsLit q)) h h1
  obtain ⟨l, k1, k2⟩ := tidy_lit g2 (fun _ => g3 rfl) {} false (fun c hc => by cases hc)
  refine ⟨.array b.groups {} false, l, by unfold buildArray; rw [h1]; rfl, ?_, by rw [g1]; exact k2⟩
  have : is = printed vs := by
    have e1 := h2.elems
    rw [g1, printed_append, printed_tail g2.tail, List.append_nil, h3] at e1
    rw [e1]; rfl
  rw [this]; exact k1

end Tomlkit
