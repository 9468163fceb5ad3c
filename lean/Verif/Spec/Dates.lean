import Verif.Spec.Numbers
/-!
# Specification: dates and times (RFC 3339 as used by TOML)

A text is the list of its code points: `-` is 45, `:` is 58, `.` is 46, `+` is 43.
-/
namespace Spec

/-- `s` consists of decimal digits -/
def AllDigits (s : List Nat) : Prop := ∀ c ∈ s, IsDigit 10 c

/-- two decimal digits denoting `v` -/
def TwoDigits (s : List Nat) (v : Nat) : Prop := s.length = 2 ∧ AllDigits s ∧ positional 10 s = v

/-- leap years of the Gregorian calendar -/
def Leap (y : Nat) : Prop := 4 ∣ y ∧ (¬ 100 ∣ y ∨ 400 ∣ y)

/-- day `d` exists in month `m` of year `y`, years 1 to 9999 -/
def ValidDate (y m d : Nat) : Prop :=
  1 ≤ y ∧ y ≤ 9999 ∧ 1 ≤ m ∧ m ≤ 12 ∧ 1 ≤ d ∧ d ≤ 31 ∧ (m ∈ [4, 6, 9, 11] → d ≤ 30) ∧ (m = 2 → d ≤ 29) ∧
    (m = 2 → ¬ Leap y → d ≤ 28)

/-- hour, minute, second, microsecond of a day (no leap seconds) -/
def ValidTime (h m s us : Nat) : Prop := h < 24 ∧ m < 60 ∧ s < 60 ∧ us < 1000000

/-- an offset from UTC in minutes, strictly between -24 h and +24 h -/
def ValidOffset (o : Int) : Prop := -1440 < o ∧ o < 1440

/-- `YYYY-MM-DD`; the year may have any number of digits -/
def DateText (s : List Nat) (y m d : Nat) : Prop :=
  ∃ ys ms ds, s = ys ++ 45 :: (ms ++ 45 :: ds) ∧ ys ≠ [] ∧ AllDigits ys ∧ positional 10 ys = y ∧ TwoDigits ms m ∧
    TwoDigits ds d

/-- nothing, or a dot and a fraction of a second: the microseconds, **truncated** to six digits -/
def FracText (s : List Nat) (us : Nat) : Prop :=
  (s = [] ∧ us = 0) ∨
    ∃ f, s = 46 :: f ∧ f ≠ [] ∧ AllDigits f ∧ us = positional 10 f * 1000000 / 10 ^ f.length

/-- `HH:MM:SS` with an optional fraction -/
def TimeText (s : List Nat) (h m sec us : Nat) : Prop :=
  ∃ hs ms ss fs, s = hs ++ 58 :: (ms ++ 58 :: (ss ++ fs)) ∧ TwoDigits hs h ∧ TwoDigits ms m ∧ TwoDigits ss sec ∧
    FracText fs us

/-- nothing, `Z`, or `+HH:MM` / `-HH:MM`; `plus` tells which characters count as a plus sign -/
def ZoneText (plus : List Nat) (s : List Nat) (z : Option Int) : Prop :=
  (s = [] ∧ z = none) ∨ ((s = [90] ∨ s = [122]) ∧ z = some 0) ∨
    ∃ sg hs ms h m, s = sg :: (hs ++ 58 :: ms) ∧ TwoDigits hs h ∧ TwoDigits ms m ∧ h < 24 ∧ m < 60 ∧
      ((sg ∈ plus ∧ z = some ((h * 60 + m : Nat) : Int)) ∨ (sg = 45 ∧ z = some (-((h * 60 + m : Nat) : Int))))

end Spec
