import Verif.Proofs.Numbers
import Verif.Spec.Dates
import Verif.Model.Api
/-! Lemmas on the date and time matchers. -/
namespace Tomlkit
open Spec

theorem isDigit_iff (c : Chr) : isDigit c = true ↔ 48 ≤ c ∧ c ≤ 57 := by simp [isDigit]

theorem IsDigit10_iff (c : Nat) : IsDigit 10 c ↔ 48 ≤ c ∧ c ≤ 57 := by
  unfold IsDigit digitValue
  constructor
  · rintro ⟨d, h, hd⟩
    split at h
    · assumption
    · split at h
      · simp at h; omega
      · split at h
        · simp at h; omega
        · simp at h
  · intro h
    exact ⟨c - 48, by rw [if_pos h], by omega⟩

theorem dig_digit {c : Nat} (h : IsDigit 10 c) : dig c = c - 48 := by
  rw [IsDigit10_iff] at h
  simp [dig, digitValue, h]

theorem digitsNat_eq {s : Str} (h : AllDigits s) : digitsNat s = positional 10 s := by
  unfold digitsNat positional
  generalize 0 = a
  induction s generalizing a with
  | nil => rfl
  | cons c r ih =>
    simp only [List.foldl_cons]
    rw [dig_digit (h c (by simp)), ih fun x hx => h x (by simp [hx])]

theorem twoDigits_iff (x : Str) (v : Nat) : TwoDigits x v ↔
    ∃ a b, x = [a, b] ∧ 48 ≤ a ∧ a ≤ 57 ∧ 48 ≤ b ∧ b ≤ 57 ∧ (a - 48) * 10 + (b - 48) = v := by
  unfold TwoDigits
  constructor
  · rintro ⟨hl, hd, hv⟩
    match x, hl with
    | [a, b], _ =>
      have ha := hd a (by simp)
      have hb := hd b (by simp)
      rw [← digitsNat_eq hd] at hv
      rw [IsDigit10_iff] at ha hb
      exact ⟨a, b, rfl, ha.1, ha.2, hb.1, hb.2, by simpa [digitsNat] using hv⟩
  · rintro ⟨a, b, rfl, h1, h2, h3, h4, hv⟩
    have hd : AllDigits [a, b] := by
      intro c hc
      rw [IsDigit10_iff]
      simp at hc
      omega
    refine ⟨rfl, hd, ?_⟩
    rw [← digitsNat_eq hd]
    simpa [digitsNat] using hv

theorem twoDigits_le {x : Str} {v : Nat} (h : TwoDigits x v) : v ≤ 99 := by
  rw [twoDigits_iff] at h
  omega

theorem twoDigits_ne {x : Str} {v : Nat} (h : TwoDigits x v) : digitsNat x = v := by
  rw [digitsNat_eq h.2.1]; exact h.2.2

theorem reMonth_iff (s x r : Str) : reMonth s = some (x, r) ↔ s = x ++ r ∧ ∃ v, TwoDigits x v ∧ 1 ≤ v ∧ v ≤ 12 := by
  simp only [twoDigits_iff]
  match s with
  | [] => simp [reMonth]; rintro rfl rfl; simp
  | [c] =>
    simp only [reMonth, reduceCtorEq, false_iff]
    rintro ⟨h, v, ⟨a, b, rfl, _⟩, _⟩
    simp at h
  | c :: d :: s =>
    simp only [reMonth]
    split
    · rename_i hc
      simp at hc
      constructor
      · intro h
        simp only [Option.some.injEq, Prod.mk.injEq] at h
        obtain ⟨rfl, rfl⟩ := h
        exact ⟨rfl, _, ⟨c, d, rfl, by omega, by omega, by omega, by omega, rfl⟩, by omega, by omega⟩
      · rintro ⟨h, v, ⟨a, b, rfl, _⟩, _⟩
        simp at h
        simp [h]
    · rename_i hc
      simp at hc
      simp only [reduceCtorEq, false_iff]
      rintro ⟨h, v, ⟨a, b, rfl, _⟩, _⟩
      simp at h
      omega

theorem reDay_iff (s x r : Str) : reDay s = some (x, r) ↔ s = x ++ r ∧ ∃ v, TwoDigits x v ∧ 1 ≤ v ∧ v ≤ 31 := by
  simp only [twoDigits_iff]
  match s with
  | [] => simp [reDay]; rintro rfl rfl; simp
  | [c] =>
    simp only [reDay, reduceCtorEq, false_iff]
    rintro ⟨h, v, ⟨a, b, rfl, _⟩, _⟩
    simp at h
  | c :: d :: s =>
    simp only [reDay]
    split
    · rename_i hc
      simp [isDigit_iff] at hc
      constructor
      · intro h
        simp only [Option.some.injEq, Prod.mk.injEq] at h
        obtain ⟨rfl, rfl⟩ := h
        exact ⟨rfl, _, ⟨c, d, rfl, by omega, by omega, by omega, by omega, rfl⟩, by omega, by omega⟩
      · rintro ⟨h, v, ⟨a, b, rfl, _⟩, _⟩
        simp at h
        simp [h]
    · rename_i hc
      simp only [Bool.or_eq_true, Bool.and_eq_true, isDigit_iff, decide_eq_true_eq] at hc
      simp only [reduceCtorEq, false_iff]
      rintro ⟨h, v, ⟨a, b, rfl, _⟩, _⟩
      simp at h
      omega

theorem reHour_iff (s x r : Str) : reHour s = some (x, r) ↔ s = x ++ r ∧ ∃ v, TwoDigits x v ∧ v < 24 := by
  simp only [twoDigits_iff]
  match s with
  | [] => simp [reHour]; rintro rfl rfl; simp
  | [c] =>
    simp only [reHour, reduceCtorEq, false_iff]
    rintro ⟨h, v, ⟨a, b, rfl, _⟩, _⟩
    simp at h
  | c :: d :: s =>
    simp only [reHour]
    split
    · rename_i hc
      simp only [Bool.or_eq_true, Bool.and_eq_true, isDigit_iff, decide_eq_true_eq] at hc
      constructor
      · intro h
        simp only [Option.some.injEq, Prod.mk.injEq] at h
        obtain ⟨rfl, rfl⟩ := h
        exact ⟨rfl, _, ⟨c, d, rfl, by omega, by omega, by omega, by omega, rfl⟩, by omega⟩
      · rintro ⟨h, v, ⟨a, b, rfl, _⟩, _⟩
        simp at h
        simp [h]
    · rename_i hc
      simp only [Bool.or_eq_true, Bool.and_eq_true, isDigit_iff, decide_eq_true_eq] at hc
      simp only [reduceCtorEq, false_iff]
      rintro ⟨h, v, ⟨a, b, rfl, _⟩, _⟩
      simp at h
      omega

theorem reMinute_iff (s x r : Str) : reMinute s = some (x, r) ↔ s = x ++ r ∧ ∃ v, TwoDigits x v ∧ v < 60 := by
  simp only [twoDigits_iff]
  match s with
  | [] => simp [reMinute]; rintro rfl rfl; simp
  | [c] =>
    simp only [reMinute, reduceCtorEq, false_iff]
    rintro ⟨h, v, ⟨a, b, rfl, _⟩, _⟩
    simp at h
  | c :: d :: s =>
    simp only [reMinute]
    split
    · rename_i hc
      simp only [Bool.or_eq_true, Bool.and_eq_true, isDigit_iff, decide_eq_true_eq] at hc
      constructor
      · intro h
        simp only [Option.some.injEq, Prod.mk.injEq] at h
        obtain ⟨rfl, rfl⟩ := h
        exact ⟨rfl, _, ⟨c, d, rfl, by omega, by omega, by omega, by omega, rfl⟩, by omega⟩
      · rintro ⟨h, v, ⟨a, b, rfl, _⟩, _⟩
        simp at h
        simp [h]
    · rename_i hc
      simp only [Bool.or_eq_true, Bool.and_eq_true, isDigit_iff, decide_eq_true_eq] at hc
      simp only [reduceCtorEq, false_iff]
      rintro ⟨h, v, ⟨a, b, rfl, _⟩, _⟩
      simp at h
      omega

theorem reSecond_iff (s x r : Str) : reSecond s = some (x, r) ↔ s = x ++ r ∧ ∃ v, TwoDigits x v ∧ v ≤ 60 := by
  simp only [twoDigits_iff]
  match s with
  | [] => simp [reSecond]; rintro rfl rfl; simp
  | [c] =>
    simp only [reSecond, reduceCtorEq, false_iff]
    rintro ⟨h, v, ⟨a, b, rfl, _⟩, _⟩
    simp at h
  | c :: d :: s =>
    simp only [reSecond]
    split
    · rename_i hc
      simp only [Bool.or_eq_true, Bool.and_eq_true, isDigit_iff, decide_eq_true_eq] at hc
      constructor
      · intro h
        simp only [Option.some.injEq, Prod.mk.injEq] at h
        obtain ⟨rfl, rfl⟩ := h
        exact ⟨rfl, _, ⟨c, d, rfl, by omega, by omega, by omega, by omega, rfl⟩, by omega⟩
      · rintro ⟨h, v, ⟨a, b, rfl, _⟩, _⟩
        simp at h
        simp [h]
    · rename_i hc
      simp only [Bool.or_eq_true, Bool.and_eq_true, isDigit_iff, decide_eq_true_eq] at hc
      simp only [reduceCtorEq, false_iff]
      rintro ⟨h, v, ⟨a, b, rfl, _⟩, _⟩
      simp at h
      omega

theorem lit_iff (c : Chr) (s r : Str) : lit c s = some r ↔ s = c :: r := by
  cases s with
  | nil => simp [lit]
  | cons a s =>
    simp only [lit]
    split <;> simp_all

/-- `s` does not start with a digit -/
def NoDigitHead (s : Str) : Prop := ∀ c r, s = c :: r → isDigit c = false

theorem takeDrop_digits (d r : Str) (h : AllDigits d) (hr : NoDigitHead r) :
    (d ++ r).takeWhile isDigit = d ∧ (d ++ r).dropWhile isDigit = r := by
  induction d with
  | nil =>
    cases r with
    | nil => simp
    | cons c r => simp [hr c r rfl]
  | cons c d ih =>
    have hc : isDigit c = true := by
      rw [isDigit_iff, ← IsDigit10_iff]; exact h c (by simp)
    have := ih fun x hx => h x (by simp [hx])
    simp [hc, this]

theorem digits1_iff (s d r : Str) : digits1 s = some (d, r) ↔ s = d ++ r ∧ d ≠ [] ∧ AllDigits d ∧ NoDigitHead r := by
  unfold digits1
  constructor
  · intro h
    have h' := digits1_some (s := s) (d := d) (r := r) h
    refine ⟨h'.1, h'.2.1, fun c hc => ?_, ?_⟩
    · rw [IsDigit10_iff, ← isDigit_iff]; exact h'.2.2 c hc
    · intro c r' hr
      simp only at h
      split at h
      · simp at h
      · simp only [Option.some.injEq, Prod.mk.injEq] at h
        have hd := h.2
        rw [hr] at hd
        have := List.head?_dropWhile_not isDigit s
        rw [hd] at this
        simpa using this
  · rintro ⟨rfl, hd, ha, hr⟩
    obtain ⟨h1, h2⟩ := takeDrop_digits d r ha hr
    simp [h1, h2, hd]

theorem strictDate_iff (s y m d r : Str) : strictDate s = some ((y, m, d), r) ↔
    s = y ++ 45 :: (m ++ 45 :: (d ++ r)) ∧ y ≠ [] ∧ AllDigits y ∧ (∃ v, TwoDigits m v ∧ 1 ≤ v ∧ v ≤ 12) ∧
      ∃ v, TwoDigits d v ∧ 1 ≤ v ∧ v ≤ 31 := by
  unfold strictDate
  simp only [Option.bind_eq_bind, Option.bind_eq_some_iff, Prod.exists, digits1_iff, lit_iff, reMonth_iff, reDay_iff,
    pure, Option.some.injEq, Prod.mk.injEq]
  constructor
  · rintro ⟨y', r1, ⟨rfl, h1, h2, h3⟩, r2, rfl, m', r3, ⟨rfl, h4⟩, r4, rfl, d', r5, ⟨rfl, h5⟩, ⟨rfl, rfl, rfl⟩, rfl⟩
    exact ⟨rfl, h1, h2, h4, h5⟩
  · rintro ⟨rfl, h1, h2, h4, h5⟩
    refine ⟨y, _, ⟨rfl, h1, h2, ?_⟩, _, rfl, m, _, ⟨rfl, h4⟩, _, rfl, d, _, ⟨rfl, h5⟩, ⟨rfl, rfl, rfl⟩, rfl⟩
    intro c r' h
    simp at h
    simp [← h.1, isDigit]

/-- the fraction part is matched greedily -/
theorem reFrac_iff (s r : Str) (f : Option Str) : reFrac s = (f, r) ↔
    (match f with
      | none => s = r ∧ ∀ r', s = 46 :: r' → NoDigitHead r'
      | some d => s = 46 :: (d ++ r) ∧ d ≠ [] ∧ AllDigits d ∧ NoDigitHead r) := by
  unfold reFrac
  split
  · rename_i s'
    cases hd : digits1 s' with
    | none =>
      simp only [Prod.mk.injEq]
      have hno : NoDigitHead s' := by
        intro c r' h
        cases hc : isDigit c with
        | false => rfl
        | true =>
          exfalso
          simp [digits1, h, hc] at hd
      cases f with
      | none =>
        simp
        intro _
        exact hno
      | some d =>
        simp only [reduceCtorEq, false_and, false_iff]
        rintro ⟨h1, h2, h3, h4⟩
        have := (digits1_iff s' d r).2 ⟨by simpa using h1, h2, h3, h4⟩
        rw [hd] at this; cases this
    | some p =>
      obtain ⟨d', r'⟩ := p
      have hd' := (digits1_iff s' d' r').1 hd
      simp only [Prod.mk.injEq]
      cases f with
      | none =>
        simp only [reduceCtorEq, false_and, false_iff]
        rintro ⟨_, h2⟩
        have h3 := h2 s' rfl
        cases d' with
        | nil => exact hd'.2.1 rfl
        | cons c d' =>
          have := h3 c (d' ++ r') (by simpa using hd'.1)
          have h4 := (IsDigit10_iff c).1 (hd'.2.2.1 c (by simp))
          rw [← isDigit_iff] at h4
          rw [this] at h4; cases h4
      | some d =>
        simp only [Option.some.injEq]
        constructor
        · rintro ⟨rfl, rfl⟩
          exact ⟨by rw [hd'.1], hd'.2⟩
        · rintro ⟨h1, h2, h3, h4⟩
          have := (digits1_iff s' d r).2 ⟨by simpa using h1, h2, h3, h4⟩
          rw [hd] at this
          simpa using this
  · rename_i hne
    cases f with
    | none =>
      simp
      intro _ r' h
      exact absurd h (hne r')
    | some d =>
      simp
      intro h
      exact absurd h (hne _)

theorem strictTime_iff (s h m se r : Str) (f : Option Str) : strictTime s = some ((h, m, se, f), r) ↔
    ∃ r1, s = h ++ 58 :: (m ++ 58 :: (se ++ r1)) ∧ (∃ v, TwoDigits h v ∧ v < 24) ∧ (∃ v, TwoDigits m v ∧ v < 60) ∧
      (∃ v, TwoDigits se v ∧ v ≤ 60) ∧ reFrac r1 = (f, r) := by
  unfold strictTime
  simp only [Option.bind_eq_bind, Option.bind_eq_some_iff, Prod.exists, lit_iff, reHour_iff, reMinute_iff, reSecond_iff,
    pure, Option.some.injEq, Prod.mk.injEq]
  constructor
  · rintro ⟨h', r1, ⟨rfl, h1⟩, r2, rfl, m', r3, ⟨rfl, h4⟩, r4, rfl, d', r5, ⟨rfl, h5⟩, ⟨rfl, rfl, rfl, rfl⟩, rfl⟩
    exact ⟨r5, rfl, h1, h4, h5, rfl⟩
  · rintro ⟨r1, rfl, h1, h4, h5, h6⟩
    exact ⟨h, _, ⟨rfl, h1⟩, _, rfl, m, _, ⟨rfl, h4⟩, _, rfl, se, _, ⟨rfl, h5⟩, by rw [h6]; exact ⟨⟨rfl, rfl, rfl, rfl⟩, rfl⟩⟩

/-- what a matched zone stands for -/
def ZoneIs (s : Str) : Zone → Prop
  | .utc => s = [90] ∨ s = [122]
  | .off c h m => s = c :: (h ++ 58 :: m) ∧ (c = 43 ∨ c = 124 ∨ c = 45) ∧ (∃ v, TwoDigits h v ∧ v < 24) ∧
      ∃ v, TwoDigits m v ∧ v < 60

theorem reZone_some (s r : Str) (z : Zone) : reZone s = (some z, r) ↔ ∃ t, s = t ++ r ∧ ZoneIs t z := by
  cases s with
  | nil =>
    simp only [reZone, Prod.mk.injEq, reduceCtorEq, false_and, false_iff]
    rintro ⟨t, h, hz⟩
    have : t = [] := by cases t <;> simp_all
    subst this
    cases z <;> simp [ZoneIs] at hz
  | cons c s =>
    simp only [reZone]
    split
    · rename_i hc
      simp at hc
      constructor
      · intro h
        simp only [Prod.mk.injEq, Option.some.injEq] at h
        obtain ⟨rfl, rfl⟩ := h
        exact ⟨[c], rfl, by simpa [ZoneIs] using hc⟩
      · rintro ⟨t, h, hz⟩
        cases z with
        | utc =>
          simp only [ZoneIs] at hz
          rcases hz with rfl | rfl <;> simp at h <;> simp [h]
        | off c' hh mm =>
          obtain ⟨rfl, hc', _⟩ := hz
          simp at h
          omega
    · rename_i hc
      simp at hc
      split
      · rename_i hc2
        simp at hc2
        constructor
        · intro h
          cases h1 : reHour s with
          | none => simp [h1] at h
          | some p =>
            obtain ⟨hh, r1⟩ := p
            rw [h1] at h
            simp only at h
            cases h2 : lit 58 r1 with
            | none => simp [h2] at h
            | some r2 =>
              rw [h2] at h
              simp only at h
              cases h3 : reMinute r2 with
              | none => simp [h3] at h
              | some q =>
                obtain ⟨mm, r3⟩ := q
                rw [h3] at h
                simp only [Prod.mk.injEq, Option.some.injEq] at h
                obtain ⟨rfl, rfl⟩ := h
                rw [reHour_iff] at h1
                rw [lit_iff] at h2
                rw [reMinute_iff] at h3
                refine ⟨c :: (hh ++ 58 :: mm), ?_, rfl, by omega, h1.2, h3.2⟩
                rw [h1.1, h2, h3.1]; simp
        · rintro ⟨t, h, hz⟩
          cases z with
          | utc =>
            simp only [ZoneIs] at hz
            rcases hz with rfl | rfl <;> simp at h <;> omega
          | off c' hh mm =>
            obtain ⟨rfl, _, h1, h2⟩ := hz
            simp only [List.cons_append, List.append_assoc, List.cons.injEq] at h
            obtain ⟨rfl, rfl⟩ := h
            rw [(reHour_iff _ hh _).2 ⟨rfl, h1⟩]
            simp only
            rw [(lit_iff 58 _ _).2 rfl]
            simp only
            rw [(reMinute_iff _ mm _).2 ⟨rfl, h2⟩]
      · rename_i hc2
        simp at hc2
        simp only [Prod.mk.injEq, reduceCtorEq, false_and, false_iff]
        rintro ⟨t, h, hz⟩
        cases z with
        | utc =>
          simp only [ZoneIs] at hz
          rcases hz with rfl | rfl <;> simp at h <;> omega
        | off c' hh mm =>
          obtain ⟨rfl, hc', _⟩ := hz
          simp at h
          omega

theorem reZone_none {s r : Str} (h : reZone s = (none, r)) : r = s := by
  unfold reZone at h
  repeat' split at h
  all_goals simp_all

theorem positional_foldl (base : Nat) (a : Nat) (s : Str) :
    s.foldl (fun a c => a * base + dig c) a = a * base ^ s.length + positional base s := by
  unfold positional
  induction s generalizing a with
  | nil => simp
  | cons c s ih =>
    simp only [List.foldl_cons, List.length_cons]
    rw [ih, ih (0 * base + dig c)]
    rw [Nat.pow_succ, Nat.add_mul, Nat.mul_assoc a base, Nat.mul_comm base, Nat.zero_mul, Nat.zero_add]
    omega

theorem positional_append (base : Nat) (a b : Str) :
    positional base (a ++ b) = positional base a * base ^ b.length + positional base b := by
  conv => lhs; unfold positional
  rw [List.foldl_append, positional_foldl]
  rfl

theorem positional_lt (s : Str) (h : AllDigits s) : positional 10 s < 10 ^ s.length := by
  rcases List.eq_nil_or_concat s with rfl | ⟨L, b, rfl⟩
  · simp [positional]
  · rw [List.concat_eq_append] at h ⊢
    have ih := positional_lt L fun x hx => h x (by simp [hx])
    rw [positional_append]
    have hb := (IsDigit10_iff b).1 (h b (by simp))
    have hd : positional 10 [b] = b - 48 := by
      simp [positional, dig_digit (h b (by simp))]
    rw [hd]
    simp only [List.length_append, List.length_singleton, Nat.pow_succ]
    omega
termination_by s.length
decreasing_by simp_all

theorem positional_zeros (n : Nat) : positional 10 (List.replicate n 48) = 0 := by
  induction n with
  | zero => rfl
  | succ n ih =>
    rw [List.replicate_succ, ← List.singleton_append, positional_append, ih]
    simp [positional, dig, digitValue]

theorem allDigits_zeros (n : Nat) : AllDigits (List.replicate n 48) := by
  intro c hc
  rw [List.mem_replicate] at hc
  rw [IsDigit10_iff]; omega

/-- Six digits of a fraction are its value in microseconds, truncated. -/
theorem microOf_eq {d : Str} (h : AllDigits d) : microOf (some d) = positional 10 d * 1000000 / 10 ^ d.length := by
  unfold microOf
  simp only
  have hall : AllDigits (d ++ List.replicate (6 - d.length) 48) := by
    intro c hc
    rcases List.mem_append.1 hc with hc | hc
    · exact h c hc
    · exact allDigits_zeros _ c hc
  rw [digitsNat_eq fun c hc => hall c (List.mem_of_mem_take hc)]
  by_cases hl : d.length ≤ 6
  · rw [List.take_of_length_le (by simp; omega), positional_append, positional_zeros, List.length_replicate]
    have : 1000000 = 10 ^ (6 - d.length) * 10 ^ d.length := by
      rw [← Nat.pow_add, show 6 - d.length + d.length = 6 from by omega]
    rw [this, ← Nat.mul_assoc, Nat.mul_div_cancel _ (Nat.pow_pos (by omega))]
    omega
  · rw [List.take_append_of_le_length (by omega)]
    have hsplit := List.take_append_drop 6 d
    have hp : positional 10 d = positional 10 (d.take 6) * 10 ^ (d.length - 6) + positional 10 (d.drop 6) := by
      conv => lhs; rw [← hsplit]
      rw [positional_append, List.length_drop]
    have hlt : positional 10 (d.drop 6) < 10 ^ (d.length - 6) := by
      have := positional_lt (d.drop 6) fun c hc => h c (List.mem_of_mem_drop hc)
      rwa [List.length_drop] at this
    have hpow : 10 ^ d.length = 10 ^ (d.length - 6) * 1000000 := by
      rw [show (1000000 : Nat) = 10 ^ 6 from rfl, ← Nat.pow_add, show d.length - 6 + 6 = d.length from by omega]
    rw [hpow, Nat.mul_div_mul_right _ _ (by omega), hp]
    rw [Nat.add_comm, Nat.add_mul_div_right _ _ (Nat.pow_pos (by omega)), Nat.div_eq_of_lt hlt]
    omega

theorem atDollar_iff (s : Str) : atDollar s = true ↔ s = [] ∨ s = [10] := by
  simp [atDollar]

theorem daysInMonth_le {y m d : Nat} : d ≤ daysInMonth y m ↔
    d ≤ 31 ∧ (m ∈ [4, 6, 9, 11] → d ≤ 30) ∧ (m = 2 → d ≤ 29) ∧ (m = 2 → ¬ Leap y → d ≤ 28) := by
  have hleap : (y % 4 = 0 && (y % 100 != 0 || y % 400 = 0)) = true ↔ Leap y := by
    unfold Leap
    simp
    omega
  simp only [List.mem_cons, List.not_mem_nil, or_false]
  unfold daysInMonth
  by_cases hm : m = 2
  · rw [if_pos hm]
    by_cases hl : Leap y
    · rw [if_pos (hleap.2 hl)]
      simp [hl]; omega
    · rw [if_neg (fun h => hl (hleap.1 h))]
      simp [hl]; omega
  · rw [if_neg hm]
    by_cases hm2 : m = 4 ∨ m = 6 ∨ m = 9 ∨ m = 11
    · rw [if_pos (by simp; omega)]
      omega
    · rw [if_neg (by simp; omega)]
      omega

theorem mkDate_ok {y m d : Nat} {p : PDate} : mkDate y m d = .ok p ↔ p = ⟨y, m, d⟩ ∧ ValidDate y m d := by
  have hv : ValidDate y m d ↔ 1 ≤ y ∧ y ≤ 9999 ∧ 1 ≤ m ∧ m ≤ 12 ∧ 1 ≤ d ∧ d ≤ daysInMonth y m := by
    rw [daysInMonth_le]; rfl
  rw [hv]
  unfold mkDate
  generalize daysInMonth y m = D
  constructor
  · intro h
    split at h
    · cases h
    · split at h
      · rename_i h1 h2
        simp only [Bool.and_eq_true, decide_eq_true_eq] at h2
        injection h with h
        exact ⟨h.symm, by omega⟩
      · cases h
  · rintro ⟨rfl, h3⟩
    rw [if_neg (by omega), if_pos]
    simp only [Bool.and_eq_true, decide_eq_true_eq]
    omega

theorem mkTime_ok {h m s us : Nat} {p : PTime} : mkTime h m s us = .ok p ↔ p = ⟨h, m, s, us⟩ ∧ ValidTime h m s us := by
  unfold mkTime ValidTime
  split
  · rename_i hh
    simp only [Bool.and_eq_true, decide_eq_true_eq] at hh
    simp only [Except.ok.injEq]
    constructor
    · rintro rfl; exact ⟨rfl, by omega⟩
    · rintro ⟨rfl, _⟩; rfl
  · rename_i hh
    simp only [Bool.and_eq_true, decide_eq_true_eq] at hh
    simp only [reduceCtorEq, false_iff]
    omega

end Tomlkit
