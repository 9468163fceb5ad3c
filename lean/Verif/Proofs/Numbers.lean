import Verif.Proofs.Basic
import Verif.Model.Api
import Verif.Spec.Numbers
/-! Integer literals. -/
namespace Tomlkit
open Spec

theorem isDigit_cases {base c : Nat} (h : IsDigit base c) :
    ∃ d, digitValue c = some d ∧ d < base ∧
      ((48 ≤ c ∧ c ≤ 57 ∧ d = c - 48) ∨ (97 ≤ c ∧ c ≤ 102 ∧ d = c - 87) ∨ (65 ≤ c ∧ c ≤ 70 ∧ d = c - 55)) := by
  obtain ⟨d, h1, h2⟩ := h
  refine ⟨d, h1, h2, ?_⟩
  unfold digitValue at h1
  split at h1
  · simp at h1; omega
  · split at h1
    · simp at h1; omega
    · split at h1
      · simp at h1; omega
      · simp at h1

/-- facts about a digit character -/
theorem digit_range {base c : Nat} (h : IsDigit base c) :
    (48 ≤ c ∧ c ≤ 57) ∨ (97 ≤ c ∧ c ≤ 102) ∨ (65 ≤ c ∧ c ≤ 70) := by
  obtain ⟨d, _, _, h⟩ := isDigit_cases h; omega

theorem baseDigit_lower {base c : Nat} (h : IsDigit base c) (_hb : base ≤ 16) :
    baseDigit base (lowerAscii c) = some (dig c) := by
  obtain ⟨d, h1, h2, h3⟩ := isDigit_cases h
  have hd : dig c = d := by simp [dig, h1]
  rw [hd]
  have hl : lowerAscii c = if 65 ≤ c ∧ c ≤ 90 then c + 32 else c := by
    simp [lowerAscii]
  unfold baseDigit digitVal
  simp only [Bool.and_eq_true, decide_eq_true_eq]
  rcases h3 with h3 | h3 | h3
  · rw [hl, if_neg (by omega : ¬ (65 ≤ c ∧ c ≤ 90)), if_pos (by omega)]
    simp only [← h3.2.2, h2, if_true]
  · rw [hl, if_neg (by omega : ¬ (65 ≤ c ∧ c ≤ 90)), if_neg (by omega), if_pos (by omega)]
    simp only [← h3.2.2, h2, if_true]
  · rw [hl, if_pos (by omega : (65 ≤ c ∧ c ≤ 90)), if_neg (by omega), if_pos (by omega)]
    have : c + 32 - 87 = d := by omega
    simp only [this, h2, if_true]

theorem lower_ne_95 {base c : Nat} (h : IsDigit base c) : lowerAscii c ≠ 95 := by
  have := digit_range h
  unfold lowerAscii
  simp only [Bool.and_eq_true, decide_eq_true_eq]
  split <;> omega

theorem intDigits_digits {base : Nat} (hb : base ≤ 16) (ds : Str) (h : ∀ c ∈ ds, IsDigit base c) :
    ∀ (b : Bool) (acc : Nat), (b = true ∨ ds ≠ []) →
      intDigits base b acc (ds.map lowerAscii) = some (ds.foldl (fun a c => a * base + dig c) acc) := by
  induction ds with
  | nil => intro b acc hb'; simp at hb'; simp [intDigits, hb']
  | cons c ds ih =>
    intro b acc _
    simp only [List.map_cons, intDigits, lower_ne_95 (h c (by simp)), if_false,
      baseDigit_lower (h c (by simp)) hb]
    rw [ih (fun x hx => h x (by simp [hx])) true _ (Or.inl rfl)]
    rfl

/-! ## underscores -/

theorem dropUnderscores_noUnderscore (p : Chr → Bool) (prev : Option Chr) (g r : Str) (hg : ∀ c ∈ g, c ≠ 95) :
    dropUnderscores p prev (g ++ r) =
      g ++ dropUnderscores p (match g.getLast? with | some c => some c | none => prev) r := by
  induction g generalizing prev with
  | nil => simp
  | cons c g ih =>
    have hc := hg c (by simp)
    simp only [List.cons_append, dropUnderscores, hc, decide_false, Bool.false_and, Bool.false_eq_true, if_false]
    rw [ih _ (fun x hx => hg x (by simp [hx]))]
    cases g with
    | nil => rfl
    | cons d g => rfl

theorem underscored_head {gs : List Str} (h1 : gs ≠ []) (h2 : ∀ g ∈ gs, g ≠ []) :
    ∃ g r y t, gs = g :: r ∧ g = y :: t ∧ ∃ z, underscored gs = y :: z := by
  cases gs with
  | nil => exact absurd rfl h1
  | cons g r =>
    have := h2 g (by simp)
    cases g with
    | nil => exact absurd rfl this
    | cons y t =>
      refine ⟨_, r, y, t, rfl, rfl, ?_⟩
      cases r with
      | nil => exact ⟨t, rfl⟩
      | cons g' r => exact ⟨t ++ 95 :: underscored (g' :: r), rfl⟩

theorem dropUnderscores_groups {p : Chr → Bool} {base : Nat} (hp : ∀ c, IsDigit base c → p c = true) (gs : List Str)
    (h : DigitGroups base gs) : ∀ prev, dropUnderscores p prev (underscored gs) = gs.flatten := by
  obtain ⟨h1, h2, h3⟩ := h
  induction gs with
  | nil => exact absurd rfl h1
  | cons g r ih =>
    intro prev
    have hg95 : ∀ c ∈ g, c ≠ 95 := fun c hc => by
      have := digit_range (h3 g (by simp) c hc); omega
    cases r with
    | nil =>
      have := dropUnderscores_noUnderscore p prev g [] hg95
      simpa [underscored, dropUnderscores] using this
    | cons g' r =>
      have hr := ih (by simp) (fun x hx => h2 x (by simp [hx])) (fun x hx => h3 x (by simp [hx]))
      obtain ⟨_, _, y, t, he, hy, z, hz⟩ := underscored_head (gs := g' :: r) (by simp)
        (fun x hx => h2 x (by simp [hx]))
      have hdy : p y = true := by
        apply hp
        have := (List.cons.inj he).1
        exact h3 g' (by simp) y (by rw [this, hy]; simp)
      simp only [underscored]
      rw [dropUnderscores_noUnderscore p prev g _ hg95]
      obtain ⟨c, hc⟩ : ∃ c, g.getLast? = some c := by
        cases hh : g.getLast? with
        | none => simp at hh; exact absurd hh (h2 g (by simp))
        | some c => exact ⟨c, rfl⟩
      have hcm : c ∈ g := List.mem_of_getLast? hc
      have hpc : p c = true := hp c (h3 g (by simp) c hcm)
      rw [hc]
      have hrr := hr (some 95)
      rw [hz] at hrr
      simp only [dropUnderscores, decide_true, hpc, Bool.true_and, hz, hdy, if_true] at hrr ⊢
      rw [hrr]
      simp

/-! ## Python's int() on digits -/

theorem lower_of_digit {base c : Nat} (h : IsDigit base c) :
    (48 ≤ lowerAscii c ∧ lowerAscii c ≤ 57) ∨ (97 ≤ lowerAscii c ∧ lowerAscii c ≤ 102) := by
  have := digit_range h
  unfold lowerAscii
  simp only [Bool.and_eq_true, decide_eq_true_eq]
  split <;> omega

/-- plain printable ASCII text is not changed by the preparation of a number -/
theorem normNum_id {s : Str} (h : ∀ c ∈ s, c < 127) : normNum s = s := by
  induction s with
  | nil => rfl
  | cons c s ih =>
    have hc := h c (by simp)
    have := ih fun x hx => h x (by simp [hx])
    unfold normNum at this ⊢
    simp [hc, this]

theorem stripAscii_id {s : Str} (h : ∀ c ∈ s, isAsciiSpace c = false) : stripAscii s = s := by
  unfold stripAscii
  have h1 : ∀ t : Str, (∀ c ∈ t, isAsciiSpace c = false) → t.dropWhile isAsciiSpace = t := by
    intro t ht
    cases t with
    | nil => rfl
    | cons c t => simp [ht c (by simp)]
  rw [h1 s h, h1 s.reverse (by simpa using h)]
  simp

theorem prep_id {s : Str} (h : ∀ c ∈ s, 32 < c ∧ c < 127) : stripAscii (normNum s) = s := by
  rw [normNum_id fun c hc => (h c hc).2, stripAscii_id]
  intro c hc
  have := h c hc
  simp [isAsciiSpace]
  omega

/-! ## _parse_number on well-formed literals -/

theorem flatten_digits {base : Nat} {gs : List Str} (h : DigitGroups base gs) : ∀ c ∈ gs.flatten, IsDigit base c := by
  intro c hc
  obtain ⟨g, hg, hcg⟩ := List.mem_flatten.1 hc
  exact h.2.2 g hg c hcg

theorem flatten_ne_nil {base : Nat} {gs : List Str} (h : DigitGroups base gs) : gs.flatten ≠ [] := by
  obtain ⟨g, r, y, t, rfl, rfl, _⟩ := underscored_head h.1 h.2.1
  simp

theorem mem_underscored {gs : List Str} {c : Chr} (h : c ∈ underscored gs) : c = 95 ∨ ∃ g ∈ gs, c ∈ g := by
  induction gs with
  | nil => simp [underscored] at h
  | cons g r ih =>
    cases r with
    | nil => exact Or.inr ⟨g, by simp, by simpa [underscored] using h⟩
    | cons g' r =>
      simp only [underscored, List.mem_append, List.mem_cons] at h
      rcases h with h | h | h
      · exact Or.inr ⟨g, by simp, h⟩
      · exact Or.inl h
      · rcases ih (by simpa using h) with h | ⟨g2, h1, h2⟩
        · exact Or.inl h
        · exact Or.inr ⟨g2, by simp at h1; simp [h1], h2⟩

theorem underscored_range {base : Nat} {gs : List Str} (h : DigitGroups base gs) {c : Chr} (hc : c ∈ underscored gs) :
    c = 95 ∨ (48 ≤ c ∧ c ≤ 57) ∨ (97 ≤ c ∧ c ≤ 102) ∨ (65 ≤ c ∧ c ≤ 70) := by
  rcases mem_underscored hc with h' | ⟨g, hg, hcg⟩
  · exact Or.inl h'
  · exact Or.inr (digit_range (h.2.2 g hg c hcg))

theorem endsDot_false {s : Str} (h : ∀ c ∈ s, c ≠ 46) : endsDot s = false := by
  unfold endsDot
  cases hh : s.getLast? with
  | none => rfl
  | some c =>
    have := h c (List.mem_of_getLast? hh)
    simpa using this

theorem clean_of {raw pre : Str} {base : Nat} {gs : List Str} (hr : raw = pre ++ underscored gs)
    (hg : DigitGroups base gs) (hpre : ∀ c ∈ pre, c ≠ 95 ∧ lowerAscii c = c)
    (hp : ∀ c, IsDigit base c → numDigitClass raw c = true) :
    numClean raw = pre ++ gs.flatten.map lowerAscii := by
  unfold numClean
  conv => lhs; rw [hr]
  rw [dropUnderscores_noUnderscore _ _ _ _ (fun c hc => (hpre c hc).1), ← hr, dropUnderscores_groups hp gs hg,
    List.map_append]
  congr 1
  rw [List.map_congr_left (g := id)]
  · simp
  · intro c hc; simpa using (hpre c hc).2

/-- the four shapes of an integer literal without sign: prefix and base -/
inductive BasePrefix : Str → Nat → Prop
  | bin : BasePrefix (t!"0b") 2
  | oct : BasePrefix (t!"0o") 8
  | hex : BasePrefix (t!"0x") 16

theorem parseNumber_based {pre : Str} {base : Nat} (hb : BasePrefix pre base) {gs : List Str}
    (hg : DigitGroups base gs) (t : Trivia) :
    parseNumber (pre ++ underscored gs) t = some (.integer (positional base gs.flatten) t (pre ++ underscored gs)) := by
  have hcls : ∀ c, IsDigit base c → numDigitClass (pre ++ underscored gs) c = true := by
    intro c hc
    obtain ⟨d, h1, h2, h3⟩ := isDigit_cases hc
    cases hb
    · simp [numDigitClass, List.isPrefixOf]; omega
    · simp [numDigitClass, List.isPrefixOf]; omega
    · simp [numDigitClass, List.isPrefixOf, isHexChar, isDigit]; omega
  have hclean := clean_of (raw := pre ++ underscored gs) rfl hg (by
    cases hb <;> decide) hcls
  have hrange : ∀ c ∈ gs.flatten.map lowerAscii, (48 ≤ c ∧ c ≤ 57) ∨ (97 ≤ c ∧ c ≤ 102) := by
    intro c hc
    obtain ⟨x, hx, rfl⟩ := List.mem_map.1 hc
    exact lower_of_digit (flatten_digits hg x hx)
  have hbase : base ≤ 16 := by cases hb <;> decide
  have hnum : numBase (pre ++ underscored gs) = base := by cases hb <;> rfl
  have hsign : numSign (pre ++ underscored gs) = ([], pre ++ underscored gs) := by cases hb <;> rfl
  have hne := flatten_ne_nil hg
  obtain ⟨y, t', hyt⟩ : ∃ y t', gs.flatten = y :: t' := by
    cases hh : gs.flatten with
    | nil => exact absurd hh hne
    | cons y t' => exact ⟨y, t', rfl⟩
  have hy95 : lowerAscii y ≠ 95 := lower_ne_95 (flatten_digits hg y (by rw [hyt]; simp))
  have hrej : numRejected [] (pre ++ underscored gs) = false := by
    unfold numRejected
    have h95 : (numClean (pre ++ underscored gs)).contains 95 = false := by
      rw [hclean]
      cases hh : (pre ++ gs.flatten.map lowerAscii).contains 95
      · rfl
      · exfalso
        simp only [List.contains_iff_mem] at hh
        rcases List.mem_append.1 hh with h | h
        · cases hb <;> simp at h
        · have := hrange 95 h; omega
    have h46 : ∀ c ∈ numClean (pre ++ underscored gs), c ≠ 46 := by
      intro c hc
      rw [hclean] at hc
      rcases List.mem_append.1 hc with h | h
      · rintro rfl; cases hb <;> simp at h
      · have := hrange c h; omega
    have h46' : ∀ c ∈ beforeE (numClean (pre ++ underscored gs)), c ≠ 46 := by
      intro c hc
      exact h46 c ((List.takeWhile_prefix _).subset hc)
    simp only [h95, endsDot_false h46, endsDot_false h46', Bool.and_false, Bool.or_false]
    cases hb <;> simp [List.isPrefixOf]
  have hint : pyInt base (pre ++ gs.flatten.map lowerAscii) = some ((positional base gs.flatten : Nat) : Int) := by
    unfold pyInt
    rw [prep_id (by
      intro c hc
      rcases List.mem_append.1 hc with h | h
      · cases hb <;> simp at h <;> omega
      · have := hrange c h; omega)]
    have hd : dropBasePrefix base (pre ++ gs.flatten.map lowerAscii) = gs.flatten.map lowerAscii := by
      rw [hyt]
      cases hb <;> simp [dropBasePrefix, hy95] <;> (split <;> simp_all)
    have hd2 : intDigits base false 0 (gs.flatten.map lowerAscii) = some (positional base gs.flatten) :=
      intDigits_digits hbase _ (flatten_digits hg) false 0 (Or.inr hne)
    cases hb
    · simp only [List.cons_append, List.nil_append] at hd ⊢
      simp [hd, hd2, intSign, -List.map_flatten]
    · simp only [List.cons_append, List.nil_append] at hd ⊢
      simp [hd, hd2, intSign, -List.map_flatten]
    · simp only [List.cons_append, List.nil_append] at hd ⊢
      simp [hd, hd2, intSign, -List.map_flatten]
  unfold parseNumber
  simp only [hsign, hrej, Bool.false_eq_true, if_false, hclean, List.nil_append, hnum, hint]

/-- a sign of a decimal literal and whether it is negative -/
inductive SignText : Str → Bool → Prop
  | none : SignText [] false
  | plus : SignText [43] false
  | minus : SignText [45] true

/-- the number with its sign -/
def signed (neg : Bool) (n : Nat) : Int := if neg then -(n : Int) else n

theorem dec_first {gs : List Str} (hg : DigitGroups 10 gs) (hz : NoLeadingZero gs.flatten) :
    gs = [[48]] ∨ ∃ y r, underscored gs = y :: r ∧ 49 ≤ y ∧ y ≤ 57 := by
  obtain ⟨g, r, y, t, rfl, rfl, z, hu⟩ := underscored_head hg.1 hg.2.1
  rcases hz with h | h
  · left
    simp at h
    obtain ⟨rfl, rfl, h⟩ := h
    cases r with
    | nil => rfl
    | cons g' r =>
      have := h g' (by simp)
      exact absurd this (hg.2.1 g' (by simp))
  · right
    refine ⟨y, z, hu, ?_⟩
    have h1 : y ≠ 48 := by simpa using h
    obtain ⟨d, _, h2, h3⟩ := isDigit_cases (hg.2.2 (y :: t) (by simp) y (by simp))
    omega

theorem parseNumber_dec {sg : Str} {neg : Bool} (hs : SignText sg neg) {gs : List Str}
    (hg : DigitGroups 10 gs) (hz : NoLeadingZero gs.flatten) (t : Trivia) :
    parseNumber (sg ++ underscored gs) t =
      some (.integer (signed neg (positional 10 gs.flatten)) t (sg ++ underscored gs)) := by
  have hfirst := dec_first hg hz
  have hnp : ∀ c : Chr, ([48, c] : Str).isPrefixOf (underscored gs) = false := by
    intro c
    rcases hfirst with rfl | ⟨y, r, h, h1, h2⟩
    · rfl
    · rw [h]
      have : ¬ 48 = y := by omega
      simp [List.isPrefixOf, this]
  have hcls : ∀ c, IsDigit 10 c → numDigitClass (underscored gs) c = true := by
    intro c hc
    obtain ⟨d, h1, h2, h3⟩ := isDigit_cases hc
    unfold numDigitClass
    simp only [hnp, Bool.false_eq_true, if_false]
    simp [isDigit]
    omega
  have hclean := clean_of (raw := underscored gs) (pre := []) rfl hg (by simp) hcls
  have hrange : ∀ c ∈ gs.flatten.map lowerAscii, (48 ≤ c ∧ c ≤ 57) := by
    intro c hc
    obtain ⟨x, hx, rfl⟩ := List.mem_map.1 hc
    obtain ⟨d, _, h2, h3⟩ := isDigit_cases (flatten_digits hg x hx)
    unfold lowerAscii
    simp only [Bool.and_eq_true, decide_eq_true_eq]
    split <;> omega
  have hnum : numBase (underscored gs) = 10 := by
    unfold numBase; simp only [hnp, Bool.false_eq_true, if_false]
  have hy : ∃ y r, underscored gs = y :: r ∧ 48 ≤ y ∧ y ≤ 57 := by
    rcases hfirst with rfl | ⟨y, r, h, h1, h2⟩
    · exact ⟨48, [], rfl, by omega, by omega⟩
    · exact ⟨y, r, h, by omega, by omega⟩
  have hsign : numSign (sg ++ underscored gs) = (sg, underscored gs) := by
    obtain ⟨y, r, h, h1, h2⟩ := hy
    cases hs
    · rw [h]
      unfold numSign
      split <;> simp_all
    · rfl
    · rfl
  have hne := flatten_ne_nil hg
  rw [List.nil_append] at hclean
  have hrej : numRejected sg (underscored gs) = false := by
    unfold numRejected
    have h95 : (numClean (underscored gs)).contains 95 = false := by
      rw [hclean]
      cases hh : (gs.flatten.map lowerAscii).contains 95
      · rfl
      · exfalso
        simp only [List.contains_iff_mem] at hh
        have := hrange 95 hh; omega
    have h46 : ∀ c ∈ numClean (underscored gs), c ≠ 46 := by
      intro c hc
      rw [hclean] at hc
      have := hrange c hc; omega
    have h46' : ∀ c ∈ beforeE (numClean (underscored gs)), c ≠ 46 := by
      intro c hc
      exact h46 c ((List.takeWhile_prefix _).subset hc)
    simp only [h95, endsDot_false h46, endsDot_false h46', Bool.and_false, Bool.or_false, hnp]
    rcases hfirst with rfl | ⟨y, r, h, h1, h2⟩
    · cases hs <;> rfl
    · rw [h]
      have e1 : ¬ 48 = y := by omega
      have e2 : ¬ 46 = y := by omega
      simp [List.isPrefixOf, e1, e2]
  have hint : pyInt 10 (sg ++ gs.flatten.map lowerAscii) = some (signed neg (positional 10 gs.flatten)) := by
    unfold pyInt
    rw [prep_id (by
      intro c hc
      rcases List.mem_append.1 hc with h | h
      · cases hs <;> simp at h <;> omega
      · have := hrange c h; omega)]
    have hd : ∀ s, dropBasePrefix 10 s = s := by
      intro s; unfold dropBasePrefix; split <;> simp
    have hd2 : intDigits 10 false 0 (gs.flatten.map lowerAscii) = some (positional 10 gs.flatten) :=
      intDigits_digits (by decide) _ (flatten_digits hg) false 0 (Or.inr hne)
    generalize gs.flatten.map lowerAscii = D at hd2 hrange
    cases hs
    · simp only [List.nil_append]
      obtain ⟨y, D, rfl⟩ : ∃ y D', D = y :: D' := by
        cases D with
        | nil => simp [intDigits] at hd2
        | cons y D => exact ⟨y, D, rfl⟩
      have hy := hrange y (by simp)
      have hm : intSign (y :: D) = (false, y :: D) := by
        unfold intSign
        split
        · next h => have := (List.cons.inj h).1; omega
        · next h => have := (List.cons.inj h).1; omega
        · rfl
      simp [hm, hd, hd2, signed]
    · simp [hd, hd2, signed, intSign]
    · simp [hd, hd2, signed, intSign]
  unfold parseNumber
  simp only [hsign, hrej, Bool.false_eq_true, if_false, hclean, hnum, hint]

/-! ## Text that is no date -/

theorem lit_some {c : Chr} {s r : Str} (h : lit c s = some r) : s = c :: r := by
  unfold lit at h
  split at h
  · split at h
    · next h' => simp at h; rw [h', h]
    · simp at h
  · simp at h

theorem digits1_some {s d r : Str} (h : digits1 s = some (d, r)) : s = d ++ r ∧ d ≠ [] ∧ ∀ c ∈ d, isDigit c = true := by
  unfold digits1 at h
  simp only at h
  split at h
  · simp at h
  · next hne =>
    simp at h
    obtain ⟨rfl, rfl⟩ := h
    exact ⟨(List.takeWhile_append_dropWhile).symm, hne, fun c hc => by
      have := List.all_takeWhile (l := s) (p := isDigit)
      rw [List.all_eq_true] at this
      exact this c hc⟩

theorem two_some {p q : Chr → Bool} {s d r : Str} (h : two p q s = some (d, r)) :
    ∃ a b, s = a :: b :: r ∧ d = [a, b] ∧ p a = true ∧ q b = true := by
  unfold two at h
  split at h
  · next a b t =>
    split at h
    · next h' =>
      simp at h
      simp at h'
      exact ⟨a, b, by rw [h.2], h.1.symm, h'.1, h'.2⟩
    · simp at h
  · simp at h

theorem looseDate_mem {s r : Str} (h : looseDate s = some r) : 45 ∈ s := by
  unfold looseDate at h
  simp only [Option.bind_eq_bind, Option.bind_eq_some_iff] at h
  obtain ⟨⟨d, r1⟩, h1, r2, h2, _⟩ := h
  have e1 := (digits1_some h1).1
  have e2 := lit_some h2
  simp only at e2
  rw [e1, e2]
  simp

theorem looseTime_mem {s r : Str} (h : looseTime s = some r) : 58 ∈ s := by
  unfold looseTime looseClock at h
  simp only [Option.bind_eq_bind, Option.bind_eq_some_iff] at h
  obtain ⟨⟨d, r1⟩, h1, r2, h2, _⟩ := h
  obtain ⟨a, b, e1, _⟩ := two_some h1
  have e2 := lit_some h2
  simp only at e2
  rw [e2] at e1
  cases s with
  | nil => simp [dropTimeSep] at e1
  | cons c s =>
    simp only [dropTimeSep] at e1
    split at e1
    · simp [e1]
    · rw [e1]; simp

theorem matchLoose_none {s : Str} (h0 : s ≠ []) (h1 : 45 ∉ s) (h2 : 58 ∉ s) (h3 : 10 ∉ s) : matchLoose s = none := by
  unfold matchLoose
  have e1 : looseDate s = none := by
    cases h : looseDate s with
    | none => rfl
    | some r => exact absurd (looseDate_mem h) h1
  have e2 : looseTime s = none := by
    cases h : looseTime s with
    | none => rfl
    | some r => exact absurd (looseTime_mem h) h2
  have e3 : atDollar s = false := by
    unfold atDollar
    simp [h0]
    rintro rfl
    simp at h3
  simp [e1, e2, e3]

/-! ## value() on numbers -/

/-- the end of a value -/
def ValueEnds (tail : Str) : Prop := tail = [] ∨ ∃ d r, tail = d :: r ∧ isValueEnd d = true

theorem skip_value {raw tail : Str} (h : ∀ c ∈ raw, isValueEnd c = false) (ht : ValueEnds tail) :
    (raw ++ tail).takeWhile (fun c => !isValueEnd c) = raw ∧ (raw ++ tail).dropWhile (fun c => !isValueEnd c) = tail := by
  induction raw with
  | nil =>
    rcases ht with rfl | ⟨d, r, rfl, hd⟩
    · simp
    · simp [hd]
  | cons c raw ih =>
    have hc := h c (by simp)
    have := ih fun x hx => h x (by simp [hx])
    simp [hc, this]

theorem parseValue_signed (n : Nat) {c : Chr} {r tail : Str} (hc : c = 43 ∨ c = 45) (e a l)
    (h : ∀ x ∈ c :: r, isValueEnd x = false) (ht : ValueEnds tail) {it : Item} (hp : parseNumber (c :: r) {} = some it) :
    parseValue (n + 1) ⟨c :: r ++ tail, e, a, l⟩ = .ok it ⟨tail, c :: r, a, l⟩ := by
  obtain ⟨h1, h2⟩ := skip_value h ht
  have hs : startsSpecialNumber (c :: r ++ tail) = true := by
    unfold startsSpecialNumber
    rcases hc with rfl | rfl <;> simp
  have hcur : ∀ e, (St.mk (c :: r ++ tail) e a l).cur = c := fun _ => rfl
  generalize c :: r ++ tail = X at *
  rw [parseValue]
  simp only [mark_bind, getSt_bind, hcur, hs]
  have h34 : c ≠ 34 ∧ c ≠ 39 ∧ c ≠ 116 ∧ c ≠ 102 ∧ c ≠ 91 ∧ c ≠ 123 := by omega
  simp [h34, h1, h2, hp]

theorem special_false {c : Chr} (hc : 48 ≤ c ∧ c ≤ 57) (r : Str) : startsSpecialNumber (c :: r) = false := by
  unfold startsSpecialNumber
  have h1 : isValueEnd c = false := by simp [isValueEnd]; omega
  have h2 : ¬ c = 0 := by omega
  simp [List.takeWhile_cons, h1, h2]
  omega

theorem parseValue_digit (n : Nat) {c : Chr} {r tail : Str} (hc : 48 ≤ c ∧ c ≤ 57) (e a l)
    (h : ∀ x ∈ c :: r, isValueEnd x = false) (ht : ValueEnds tail) (hm : matchLoose (c :: r) = none) {it : Item}
    (hp : parseNumber (c :: r) {} = some it) :
    parseValue (n + 1) ⟨c :: r ++ tail, e, a, l⟩ = .ok it ⟨tail, c :: r, a, l⟩ := by
  obtain ⟨h1, h2⟩ := skip_value h ht
  have hs : startsSpecialNumber (c :: r ++ tail) = false := special_false hc _
  have hcur : ∀ e, (St.mk (c :: r ++ tail) e a l).cur = c := fun _ => rfl
  generalize c :: r ++ tail = X at *
  rw [parseValue]
  simp only [mark_bind, getSt_bind, hcur, hs]
  have h34 : c ≠ 34 ∧ c ≠ 39 ∧ c ≠ 116 ∧ c ≠ 102 ∧ c ≠ 91 ∧ c ≠ 123 := by omega
  have hd : isDigit c = true := by simp [isDigit]; omega
  simp [h34, hd, parseDigits, h1, h2, hm, hp]

/-! ## Decimal text of an integer -/

theorem natDigits_spec : ∀ (f n : Nat), n < f →
    (∀ c ∈ natDigits f n, 48 ≤ c ∧ c ≤ 57) ∧ positional 10 (natDigits f n) = n ∧ natDigits f n ≠ [] ∧
    (natDigits f n = [48] ∨ (natDigits f n).head? ≠ some 48) ∧ (natDigits f n = [48] ↔ n = 0) := by
  intro f
  induction f with
  | zero => intro n h; omega
  | succ f ih =>
    intro n h
    unfold natDigits
    split
    · next h10 =>
      refine ⟨by simp; omega, ?_, by simp, ?_, by simp⟩
      · have : digitValue (48 + n) = some n := by
          unfold digitValue
          rw [if_pos (by omega)]
          simp
        simp [positional, dig, this]
      · by_cases hn : n = 0
        · left; simp [hn]
        · right; simp; omega
    · next h10 =>
      obtain ⟨h1, h2, h3, h4, h5⟩ := ih (n / 10) (by omega)
      refine ⟨?_, ?_, by simp, ?_, ?_⟩
      · intro c hc
        rcases List.mem_append.1 hc with hc | hc
        · exact h1 c hc
        · simp at hc; omega
      · have : digitValue (48 + n % 10) = some (n % 10) := by
          unfold digitValue
          rw [if_pos (by omega)]
          simp
        unfold positional at h2 ⊢
        rw [List.foldl_append, h2]
        simp [dig, this]
        omega
      · right
        rcases h4 with h4 | h4
        · have := h5.1 h4
          omega
        · cases hh : natDigits f (n / 10) with
          | nil => exact absurd hh h3
          | cons x xs => rw [hh] at h4; simpa using h4
      · constructor
        · intro hh
          have := congrArg List.length hh
          cases hh2 : natDigits f (n / 10) with
          | nil => exact absurd hh2 h3
          | cons x xs => rw [hh2] at this; simp at this
        · intro; omega

theorem natText_groups (n : Nat) : DigitGroups 10 [natText n] ∧ NoLeadingZero [natText n].flatten ∧
    positional 10 [natText n].flatten = n := by
  obtain ⟨h1, h2, h3, h4, _⟩ := natDigits_spec (n + 1) n (by omega)
  have hf : [natText n].flatten = natText n := by simp
  rw [hf]
  refine ⟨⟨by simp, by simpa [natText] using h3, ?_⟩, h4, h2⟩
  intro g hg c hc
  simp at hg
  subst hg
  have hc' := h1 c hc
  refine ⟨c - 48, ?_, by omega⟩
  unfold digitValue
  rw [if_pos hc']

theorem intText_form (n : Int) : ∃ sg neg, SignText sg neg ∧ intText n = sg ++ underscored [natText n.natAbs] ∧
    signed neg n.natAbs = n ∧ sg = (if n < 0 then [45] else []) := by
  unfold intText
  by_cases h : n < 0
  · exact ⟨[45], true, .minus, by simp [h, underscored], by simp [signed]; omega, by simp [h]⟩
  · exact ⟨[], false, .none, by simp [h, underscored], by simp [signed]; omega, by simp [h]⟩

theorem dec_value {sg : Str} {neg : Bool} (hs : SignText sg neg) {gs : List Str}
    (hg : DigitGroups 10 gs) (hz : NoLeadingZero gs.flatten) (n : Nat) (tail e a l) (ht : ValueEnds tail) :
    parseValue (n + 1) ⟨(sg ++ underscored gs) ++ tail, e, a, l⟩ =
      .ok (.integer (signed neg (positional 10 gs.flatten)) {} (sg ++ underscored gs)) ⟨tail, sg ++ underscored gs, a, l⟩ := by
  have hp := parseNumber_dec hs hg hz {}
  have hr : ∀ c ∈ underscored gs, isValueEnd c = false ∧ c ≠ 45 ∧ c ≠ 58 ∧ c ≠ 10 := by
    intro c hc
    have := underscored_range hg hc
    refine ⟨by simp [isValueEnd]; omega, by omega, by omega, by omega⟩
  have hy : ∃ y r, underscored gs = y :: r ∧ 48 ≤ y ∧ y ≤ 57 := by
    rcases dec_first hg hz with rfl | ⟨y, r, h, h1, h2⟩
    · exact ⟨48, [], rfl, by omega, by omega⟩
    · exact ⟨y, r, h, by omega, by omega⟩
  cases hs
  · obtain ⟨y, r, h, h1⟩ := hy
    simp only [List.nil_append] at hp ⊢
    rw [h] at hr hp ⊢
    refine parseValue_digit n h1 e a l (fun x hx => (hr x hx).1) ht (matchLoose_none (by simp) ?_ ?_ ?_) hp
    · intro hm; exact (hr _ hm).2.1 rfl
    · intro hm; exact (hr _ hm).2.2.1 rfl
    · intro hm; exact (hr _ hm).2.2.2 rfl
  · refine parseValue_signed n (Or.inl rfl) e a l ?_ ht hp
    intro x hx
    rcases List.mem_cons.1 hx with rfl | hx
    · decide
    · exact (hr x hx).1
  · refine parseValue_signed n (Or.inr rfl) e a l ?_ ht hp
    intro x hx
    rcases List.mem_cons.1 hx with rfl | hx
    · decide
    · exact (hr x hx).1

theorem based_value {pre : Str} {base : Nat} (hb : BasePrefix pre base) {gs : List Str}
    (hg : DigitGroups base gs) (n : Nat) (tail e a l) (ht : ValueEnds tail) :
    parseValue (n + 1) ⟨(pre ++ underscored gs) ++ tail, e, a, l⟩ =
      .ok (.integer (positional base gs.flatten) {} (pre ++ underscored gs)) ⟨tail, pre ++ underscored gs, a, l⟩ := by
  have hp := parseNumber_based hb hg {}
  have hr : ∀ c ∈ pre ++ underscored gs, isValueEnd c = false ∧ c ≠ 45 ∧ c ≠ 58 ∧ c ≠ 10 := by
    intro c hc
    rcases List.mem_append.1 hc with hc | hc
    · have : ∀ c ∈ pre, isValueEnd c = false ∧ c ≠ 45 ∧ c ≠ 58 ∧ c ≠ 10 := by cases hb <;> decide
      exact this c hc
    · have := underscored_range hg hc
      refine ⟨by simp [isValueEnd]; omega, by omega, by omega, by omega⟩
  obtain ⟨r, hpre⟩ : ∃ r, pre ++ underscored gs = 48 :: r := by cases hb <;> exact ⟨_, rfl⟩
  rw [hpre] at hp hr ⊢
  refine parseValue_digit n (by omega) e a l (fun x hx => (hr x hx).1) ht (matchLoose_none (by simp) ?_ ?_ ?_) hp
  · intro hm; exact (hr _ hm).2.1 rfl
  · intro hm; exact (hr _ hm).2.2.1 rfl
  · intro hm; exact (hr _ hm).2.2.2 rfl

/-- the text of an integer is read back -/
theorem int_value (i : Int) (n : Nat) (tail e a l) (ht : ValueEnds tail) :
    parseValue (n + 1) ⟨intText i ++ tail, e, a, l⟩ = .ok (intItem i) ⟨tail, intText i, a, l⟩ := by
  obtain ⟨sg, neg, hs, ht', hv, _⟩ := intText_form i
  obtain ⟨h1, h2, h3⟩ := natText_groups i.natAbs
  have := dec_value hs h1 h2 n tail e a l ht
  rw [h3, hv, ← ht'] at this
  exact this

end Tomlkit
