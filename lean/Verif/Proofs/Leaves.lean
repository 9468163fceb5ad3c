import Verif.Proofs.Wp
import Verif.Props.Dates
/-!
# Contracts of the steps that read one token
-/
namespace Tomlkit
open Spec

/-! ### the loose and the strict patterns agree -/

theorem looseDate_of_time {t r : Str} {h m s u : Nat} (ht : TimeText t h m s u) : looseDate (t ++ r) = none := by
  obtain ⟨hs, ms, ss, fs, rfl, g1, g2, g3, g4⟩ := ht
  have : digits1 (hs ++ 58 :: (ms ++ 58 :: (ss ++ fs)) ++ r) = some (hs, 58 :: (ms ++ 58 :: (ss ++ fs)) ++ r) := by
    rw [digits1_iff]
    refine ⟨by simp, ?_, g1.2.1, ?_⟩
    · intro h0
      have := g1.1
      rw [h0] at this
      simp at this
    · intro c r h
      simp at h
      simp [← h.1, isDigit]
  unfold looseDate
  rw [this]
  rfl

theorem looseDate_append {s r t : Str} (h : looseDate s = some r) : looseDate (s ++ t) = some (r ++ t) := by
  unfold looseDate at h
  rcases h1 : digits1 s with _ | ⟨y, r1⟩ <;> rw [h1] at h <;> simp only [bind, Option.bind] at h
  · cases h
  rcases h2 : lit 45 r1 with _ | r2 <;> rw [h2] at h <;> simp only at h
  · cases h
  rcases h3 : two isReDigit isReDigit r2 with _ | ⟨m, r3⟩ <;> rw [h3] at h <;> simp only at h
  · cases h
  rcases h4 : lit 45 r3 with _ | r4 <;> rw [h4] at h <;> simp only at h
  · cases h
  rcases h5 : two isReDigit isReDigit r4 with _ | ⟨d, r5⟩ <;> rw [h5] at h <;> simp only at h
  · cases h
  cases h
  have e2 := lit_some h2
  obtain ⟨a, b, e3, rfl, p1, p2⟩ := two_some h3
  have e4 := lit_some h4
  obtain ⟨a', b', e5, rfl, p3, p4⟩ := two_some h5
  subst e5; subst e4; subst e3; subst e2
  rw [digits1_iff] at h1
  obtain ⟨rfl, g1, g2, g3⟩ := h1
  have hd : digits1 (y ++ 45 :: a :: b :: 45 :: a' :: b' :: r ++ t) = some (y, 45 :: a :: b :: 45 :: a' :: b' :: (r ++ t)) := by
    rw [digits1_iff]
    refine ⟨by simp, g1, g2, ?_⟩
    intro c r h
    simp at h
    simp [← h.1, isDigit]
  unfold looseDate
  simp only [hd, Option.bind_eq_bind, Option.bind_some, lit, two, p1, p2, p3, p4, if_true, Bool.and_true, pure]

theorem rfc_date_loose {s : Str} {d : PDate} (h : parseRfc3339 s = .ok (.date d)) :
    ∃ r, looseDate s = some r ∧ DollarEnd r := by
  obtain ⟨t, tail, rfl, h1, h2, _⟩ := (C26_date_text s d).1 h
  exact ⟨tail, looseDate_of h2, h1⟩

theorem rfc_time_loose {s : Str} {d : PTime} (h : parseRfc3339 s = .ok (.time d)) : looseDate s = none := by
  obtain ⟨t, tail, rfl, h1, h2, _⟩ := (C26_time_text s d).1 h
  exact looseDate_of_time h2

theorem rfc_datetime_loose {s : Str} {d : PDateTime} (h : parseRfc3339 s = .ok (.datetime d)) :
    ∃ r, looseDate s = some r := by
  obtain ⟨dt, sep, tt, zt, tail, rfl, h1, h2, h3, _⟩ := (C26_datetime_text s d).1 h
  exact ⟨_, looseDate_of h3⟩

theorem matchLoose_date {s : Str} {b : Bool} (h : matchLoose s = some (true, b)) : ∃ r, looseDate s = some r ∧
    (b = false → atDollar r = true) ∧ (b = true → ∃ r', looseTime r = some r') := by
  unfold matchLoose at h
  rcases hl : looseDate s with _ | r <;> rw [hl] at h <;> simp only at h
  · split at h
    · split at h <;> cases h
    · split at h <;> cases h
  · refine ⟨r, rfl, ?_⟩
    split at h
    · rename_i r' hr'
      split at h
      · cases h; exact ⟨by simp, fun _ => ⟨_, hr'⟩⟩
      · split at h <;> cases h
        rename_i hd; exact ⟨fun _ => hd, by simp⟩
    · split at h <;> cases h
      rename_i hd; exact ⟨fun _ => hd, by simp⟩

theorem matchLoose_time {s : Str} {b : Bool} (h : matchLoose s = some (false, b)) : looseDate s = none := by
  unfold matchLoose at h
  rcases hl : looseDate s with _ | r <;> rw [hl] at h <;> simp only at h
  · split at h
    · split at h
      · cases h
      · split at h <;> cases h
    · split at h <;> cases h

theorem rfc_of_loose_tt {s : Str} {r : Rfc} (h : matchLoose s = some (true, true)) (hr : parseRfc3339 s = .ok r) :
    ∃ d, r = .datetime d := by
  obtain ⟨r1, h1, _, h3⟩ := matchLoose_date h
  obtain ⟨r2, h2⟩ := h3 rfl
  cases r with
  | datetime d => exact ⟨d, rfl⟩
  | date d =>
    obtain ⟨r3, h4, h5⟩ := rfc_date_loose hr
    rw [h1] at h4; cases h4
    rcases h5 with rfl | rfl <;> cases h2
  | time d => rw [rfc_time_loose hr] at h1; cases h1

theorem rfc_of_loose_ft {s : Str} {r : Rfc} (h : matchLoose s = some (false, true)) (hr : parseRfc3339 s = .ok r) :
    ∃ d, r = .time d := by
  have h1 := matchLoose_time h
  cases r with
  | datetime d => obtain ⟨_, h2⟩ := rfc_datetime_loose hr; rw [h1] at h2; cases h2
  | date d => obtain ⟨_, h2, _⟩ := rfc_date_loose hr; rw [h1] at h2; cases h2
  | time d => exact ⟨d, rfl⟩

/-- a date followed by more text that is not a single line break: only a date and time can be read -/
theorem rfc_of_loose_more {s t : Str} {r : Rfc} (h : matchLoose s = some (true, false)) (ht : t ≠ [])
    (ht10 : t ≠ [10]) (hr : parseRfc3339 (s ++ t) = .ok r) : ∃ d, r = .datetime d := by
  obtain ⟨r1, h1, h2, _⟩ := matchLoose_date h
  have h2 := (atDollar_iff r1).1 (h2 rfl)
  have ha := looseDate_append (t := t) h1
  cases r with
  | datetime d => exact ⟨d, rfl⟩
  | date d =>
    exfalso
    obtain ⟨r3, h4, h5⟩ := rfc_date_loose hr
    rw [ha] at h4; cases h4
    rcases h2 with rfl | rfl
    · rcases h5 with h5 | h5
      · exact ht h5
      · exact ht10 h5
    · rcases h5 with h5 | h5
      · simp at h5
      · simp at h5; exact ht h5
  | time d => rw [rfc_time_loose hr] at ha; cases ha

end Tomlkit
