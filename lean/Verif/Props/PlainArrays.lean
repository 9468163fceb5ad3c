import Verif.Proofs.PlainArray
import Verif.Proofs.ParsedRows
import Verif.Props.ArrayText
/-!
# C21 for arrays that were read
-/
namespace Tomlkit
open _root_.Spec Tomlkit.Spec

/-- the item means a value equal to `v`, and its text is read as this value -/
def Standsm (v : PyVal) (i : Item) : Prop := ∃ w, Litm w i ∧ Same v w

theorem plain_text {tl : List AGroup} (htl : TailOk tl) : ∀ {vs : List AGroup}, (∀ g ∈ vs, ValOk IsLitm g) → Commas vs →
    ∃ l, MeansAll l (printed vs) ∧ ArrText False false (groupsStr (vs ++ tl) ++ [93]) l
  | [], _, _ => by
    obtain ⟨s, h1, h2⟩ := tail_text htl
    refine ⟨[], by simp [MeansAll, printed], ?_⟩
    rw [List.nil_append, h1]
    exact ArrText.addWs h2 (.close false)
  | g :: r, hv, hc => by
    obtain ⟨l, h1, h2⟩ := plain_text htl (vs := r) (fun x hx => hv x (by simp [hx])) hc.2
    obtain ⟨i, v, c, rfl, hi, hcc, w, hw⟩ := hv g (by simp)
    have hd := hw.isData
    simp [Item.isData] at hd
    refine ⟨w :: l, ⟨v, printed r, by simp [printed, hd.2], hw.means, h1⟩, ?_⟩
    rw [List.cons_append, groupsStr, AGroup.asString, optComment, List.append_nil, List.append_assoc, List.append_assoc]
    refine ArrText.addWs (optStr_ws hi) ?_
    rw [List.append_assoc]
    rcases hcc with rfl | rfl
    · have hr : r = [] := by
        rcases r with _ | ⟨g', r⟩
        · rfl
        · have := hc.1 (by simp)
          cases this
      subst hr
      obtain ⟨s, t1, t2⟩ := tail_text htl
      have hl : l = [] := by
        rcases l with _ | _
        · rfl
        · obtain ⟨_, _, h0, _⟩ := h1
          cases h0
      subst hl
      rw [optStr, List.nil_append, List.nil_append, t1]
      exact ArrText.elemWs hw.reads t2 (fun h => h.elim) (dateEnds_cons rfl _) (by simp) (.close true)
    · rw [optStr]
      exact .elem (b := []) hw.reads Blank.nil (fun h => h.elim) (dateEnds_cons rfl _) (.comma h2)

theorem plain_multi {tl : List AGroup} (htl : TailOk tl) {ind : Str} (hind : ∀ c ∈ ind, isWs c = true) : ∀ {vs : List AGroup},
    (∀ g ∈ vs, ValOk IsLitm g) → ∃ l, MeansAll l (printed vs) ∧ ArrText False false (groupsMulti ind (vs ++ tl) ++ (ind ++ [93])) l
  | [], _ => by
    refine ⟨[], by simp [MeansAll, printed], ?_⟩
    rw [List.nil_append, multi_tail htl, List.nil_append]
    exact ArrText.addWs hind (.close false)
  | g :: r, hv => by
    obtain ⟨l, h1, h2⟩ := plain_multi htl hind (vs := r) (fun x hx => hv x (by simp [hx]))
    obtain ⟨i, v, c, rfl, hi, hcc, w, hw⟩ := hv g (by simp)
    have hd := hw.isData
    simp [Item.isData] at hd
    refine ⟨w :: l, ⟨v, printed r, by simp [printed, hd.2], hw.means, h1⟩, ?_⟩
    rw [List.cons_append, groupsMulti, AGroup.multiString, hd.2]
    simp only [Bool.false_eq_true, if_false, optComment, List.nil_append, List.append_assoc]
    refine ArrText.addWs hind (ArrText.addWs (by decide) ?_)
    exact .elem (b := []) hw.reads Blank.nil (fun h => h.elim) (dateEnds_cons rfl _) (.comma (.ws false rfl h2))

/-- the text of a tidy array is read as the list of its elements -/
theorem plain_reads {vs tl : List AGroup} (h : Tidy IsLitm vs tl) (t : Trivia) (ml : Bool) (ht : ∀ c ∈ t.indent, isWs c = true) :
    ∃ l, MeansAll l (printed vs) ∧ ReadsAs False (Item.array (vs ++ tl) t ml).asString (.list l) := by
  by_cases hm : (!ml || (vs ++ tl).isEmpty) = true
  · obtain ⟨l, h1, h2⟩ := plain_text h.tail h.vals h.commas
    refine ⟨l, h1, ?_⟩
    rw [Item.asString, if_pos hm]
    exact reads_array h2
  · obtain ⟨l, h1, h2⟩ := plain_multi h.tail ht h.vals
    refine ⟨l, h1, ?_⟩
    rw [Item.asString, if_neg hm]
    exact reads_array (.ws false rfl h2)

theorem all2_means {l : List PyVal} {is : List Item} (h : All2 Standsm l is) : ∀ {l'}, MeansAll l' is → SameAll l l' := by
  induction h with
  | nil => intro l' hl; cases l' with
    | nil => unfold SameAll; rfl
    | cons => obtain ⟨_, _, h, _⟩ := hl; cases h
  | cons h0 _ ih =>
    intro l' hl
    cases l' with
    | nil => cases hl
    | cons w r =>
      obtain ⟨i, r', he, h1, h2⟩ := hl
      cases he
      obtain ⟨w', k1, k2⟩ := h0
      rw [means_unique k1.means h1] at k2
      unfold SameAll
      exact ⟨w, r, rfl, k2, ih h2⟩

theorem all2_of : ∀ {vs : List AGroup} {l : List PyVal}, (∀ g ∈ vs, ValOk IsLitm g) → MeansAll l (printed vs) → All2 Standsm l (printed vs) := by
  intro vs l hv hm
  have hall := (printed_vals isLitm_data hv).2
  generalize printed vs = is at *
  induction l generalizing is with
  | nil => cases hm; exact .nil
  | cons v r ih =>
    obtain ⟨i, is', rfl, h1, h2⟩ := hm
    obtain ⟨w, hw⟩ := hall i (by simp)
    have := means_unique hw.means h1
    subst this
    exact .cons ⟨_, hw, same_refl _⟩ (ih is' h2 fun x hx => hall x (by simp [hx]))

theorem means_handed (w : PyVal) (i : Item) : Means w i.handed ↔ Means w i := by
  cases i with
  | bool b t => exact ⟨fun h => means_setTrivia t h, fun h => means_setTrivia {} h⟩
  | _ => exact Iff.rfl

theorem litm_handed (w : PyVal) (i : Item) : Litm w i.handed ↔ Litm w i := by
  have ht : i.handed.isTableLike = i.isTableLike := by cases i <;> rfl
  constructor
  · intro h; exact ⟨(means_handed _ _).1 h.means, Item.handed_text i ▸ h.reads, ht ▸ h.tl⟩
  · intro h; exact ⟨(means_handed _ _).2 h.means, (Item.handed_text i).symm ▸ h.reads, ht.symm ▸ h.tl⟩

theorem handy_litm : Handy IsLitm Standsm where
  elem := fun i ⟨w, h⟩ => ⟨w, (litm_handed w i).2 h⟩
  rel := fun v i => ⟨fun ⟨w, h, h'⟩ => ⟨w, (litm_handed w i).1 h, h'⟩, fun ⟨w, h, h'⟩ => ⟨w, (litm_handed w i).2 h, h'⟩⟩

/-- the state of the array object with these groups, as `Array.__init__` leaves it -/
def arrayObj (gs : List AGroup) : ArrObj := ⟨printed gs, gs, reindex gs⟩

/-- an array read from a plain text is tidy -/
theorem plain_parsed {z : Bool} {txt : Str} {l : List PyVal} (h : PlainElements z txt l) :
    ∃ gs, apiValue (91 :: txt) = .ok (.array gs {} false) ∧ (arrayObj gs).Tidy IsLitm z ∧ All2 Standsm l (arrayObj gs).list := by
  obtain ⟨n, hn⟩ : ∃ n, valueFuel (91 :: txt) = n + 1 ∧ txt.length < n :=
    ⟨valueFuel (91 :: txt) - 1, by unfold valueFuel; omega, by unfold valueFuel; simp; omega⟩
  obtain ⟨items, st, h1, ⟨⟨vs, tl, g1, g2, g3⟩, g4, _⟩, h3, h4⟩ := plain_loop h n [] [] [91] [] hn.2
  rcases st with ⟨r, e, a, lg⟩
  simp only at h3 h4
  subst h3 h4
  have hg : groupValues items = vs ++ tl := g1
  have hp : printed (vs ++ tl) = printed vs := by rw [printed_append, printed_tail g2.tail, List.append_nil]
  refine ⟨vs ++ tl, ?_, ⟨vs, tl, rfl, g2, g3⟩, ?_⟩
  · apply apiValue_of (e := e) (a := []) (l := lg)
    rw [hn.1, parseValue]
    have hne : txt ≠ [] := by cases h <;> simp
    rw [List.append_nil, List.nil_append] at h1
    rw [show St.init (91 :: txt) = ⟨91 :: txt, [], [], []⟩ from rfl]
    rw [mark_bind, getSt_bind, St.cur_cons, if_neg (by omega), if_neg (by omega), if_neg (by omega),
      if_neg (by omega), if_pos rfl, stepE_bind_cons' _ _ _ _ _ _ hne, List.nil_append, Tomlkit.P.bind_def, h1]
    exact congrArg (fun g => Res.ok (Item.array g {} false) _) hg
  · show All2 Standsm l (printed (vs ++ tl))
    rw [hp]
    refine all2_of g2.vals ?_
    rw [← hp, ← g1, printed_groupLoop]
    exact g4

/-- **C21, for an array that was read** from a text without comments and without blanks before commas: after any history of
insertions, appends, extensions, assignments, deletions, pops, clears, reversals and `add_line`s (without comments; at most one of them without
values, and none when blanks stand before the closing bracket) with any values and any indices, on one line or with `multiline(True)`,
the text of the array is read by `value()` as an array that unwraps to the plain Python list driven by the same history. -/
theorem C21_parsed_array_partial (z : Bool) (txt : Str) (l : List PyVal) (h : PlainElements z txt l) (ops : List VOp)
    (ho : ∀ o ∈ ops, (∀ v ∈ o.vals, KeysOnce v ∧ Writable v) ∧ o.Covered) (hone : OneBlankLine ops)
    (hz : z = false → ∀ o ∈ ops, o.isBlank = false) (t : Trivia) (ml : Bool) (hind : ∀ c ∈ t.indent, isWs c = true) :
    ∃ gs, apiValue (91 :: txt) = .ok (.array gs {} false) ∧
      ∃ i' w, apiValue ((arrayEdits (arrayObj gs) ops).asString t ml) = .ok i' ∧ (∃ n0, ∀ n ≥ n0, i'.unwrap n = .ok w) ∧
        Same (.list (vlistHistory l ops)) w := by
  obtain ⟨gs, h1, h2, h3⟩ := plain_parsed h
  refine ⟨gs, h1, ?_⟩
  have hi : (arrayObj gs).Inv := ⟨rfl, rfl⟩
  obtain ⟨k1, ⟨_, vs, tl, k2, k2', _⟩, k3⟩ := edits_tidy isLitm_data (fun _ h => h.m) (fun ⟨w, h, h'⟩ => ⟨w, h.m, h'⟩) handy_litm hi h2 h3 ops ho hone hz
  obtain ⟨m, k4, k5⟩ := plain_reads k2' t ml hind
  have hp : printed (vs ++ tl) = printed vs := by rw [printed_append, printed_tail k2'.tail, List.append_nil]
  have k6 : MeansAll m (arrayEdits (arrayObj gs) ops).list := by rw [← k1.elems, k2, hp]; exact k4
  obtain ⟨i', e1, e2⟩ := apiValue_reads k5
  refine ⟨i', .list m, ?_, means_unwrap e2, ?_⟩
  · unfold ArrObj.asString; rw [k2]; exact e1
  · unfold Same
    exact ⟨m, rfl, all2_means k3 k6⟩

/-- the hypotheses are met: an array over several lines, with a nested array that has a comment, and a comma behind the last element -/
def plainSample : Str := t!"1,\n  [2, # c\n 'x'],\n  true,\n]"

theorem plainSample_ok : PlainElements false plainSample [.int 1, .list [.int 2, .str (t!"x")], .bool true] := by
  have hint : ∀ d : Nat, 49 ≤ d → d < 58 → InnerValue [d] (.int ((d : Int) - 48)) := by
    intro d h1 h2
    have hv : digitValue d = some (d - 48) := by unfold digitValue; rw [if_pos ⟨by omega, by omega⟩]
    have hd : DigitGroups 10 [[d]] := ⟨by simp, by simp, fun g hg c hc => by
      simp at hg; subst hg; simp at hc; subst hc; exact ⟨_, hv, by omega⟩⟩
    have h := InnerValue.int _ _ (IntegerLiteral.decimal [[d]] hd (.inr (by simp; omega)))
    have e : (positional 10 ([[d]] : List (List Nat)).flatten : Int) = (d : Int) - 48 := by
      simp [positional, dig, hv]
      omega
    rw [e] at h
    exact h
  have hs : BlanksAndNewlines [10, 32, 32] := .newline [10] _ (.inl rfl) (.blank _ _ (.inl rfl) (.blank _ _ (.inl rfl) .nil))
  refine PlainElements.more false [] [49] _ _ _ .nil (hint 49 (by omega) (by omega)) ?_
  refine PlainElements.more false [10, 32, 32] (t!"[2, # c\n 'x']") _ _ _ hs ?_ ?_
  · refine .array _ _ (.elem [50] _ _ _ (hint 50 (by omega) (by omega)) (fun c hc => by cases hc; decide) ?_)
    refine .comma _ _ (.blank _ _ _ _ (.inl rfl) (.comment _ [32, 99] [10] _ _ (by simp [NotControl, Control]) (.inl rfl) ?_))
    refine .blank _ _ _ _ (.inl rfl) (.elem (t!"'x'") _ _ _ (.str _ _ (.literal (t!"x") ?_)) (fun c hc => by cases hc; decide) (.close _))
    intro c hc; simp at hc; simp [Control]; omega
  · exact PlainElements.more false [10, 32, 32] (t!"true") _ _ _ hs .true (.blankClose [10] (.newline [10] _ (.inl rfl) .nil) (by simp))

/-- a history with negative indices, a nested list and a line of new elements -/
def plainEdits : List VOp := [.del 0, .insert (-1) (.str (t!"a\nb")), .append (.list [.int 5]), .set 1 (.int 7), .addLine [.int 8] (t!"    ") true, .pop 0, .reverse]

theorem plainEdits_ok : ∀ o ∈ plainEdits, (∀ v ∈ o.vals, KeysOnce v ∧ Writable v) ∧ o.Covered := by
  simp [plainEdits, VOp.vals, VOp.Covered, KeysOnce, KeysOnceAll, Writable, Throughout, ThroughoutAll, Proper, isWs, isSpaces]

set_option maxRecDepth 10000 in
/-- what the history makes of the sample -/
example : (match apiValue (91 :: plainSample) with
    | .ok (.array gs _ _) => (arrayEdits (arrayObj gs) plainEdits).asString {} false
    | _ => []) = t!"[\n  8,\n  [5],\n  true,\n    7,\n]" := by decide +kernel

example := C21_parsed_array_partial false plainSample _ plainSample_ok plainEdits plainEdits_ok (by unfold OneBlankLine; decide) (fun _ o ho => by
  simp [plainEdits] at ho; rcases ho with rfl | rfl | rfl | rfl | rfl | rfl | rfl <;> rfl) {} false (fun _ hc => by cases hc)

end Tomlkit
