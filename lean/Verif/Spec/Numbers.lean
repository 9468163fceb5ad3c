/-!
# Specification: integer literals

Independent of the model: digits, positional value, groups of digits separated by underscores.
-/
namespace Spec

/-- value of the digit character `c`: `0`-`9`, `a`-`f`, `A`-`F` -/
def digitValue (c : Nat) : Option Nat :=
  if 48 ≤ c ∧ c ≤ 57 then some (c - 48)
  else if 97 ≤ c ∧ c ≤ 102 then some (c - 87)
  else if 65 ≤ c ∧ c ≤ 70 then some (c - 55)
  else none

/-- `c` is a digit of the base -/
def IsDigit (base c : Nat) : Prop := ∃ d, digitValue c = some d ∧ d < base

/-- the value of a digit, 0 if it is none -/
def dig (c : Nat) : Nat := (digitValue c).getD 0

/-- The number denoted by digits, most significant first (Horner). -/
def positional (base : Nat) (ds : List Nat) : Nat := ds.foldl (fun a c => a * base + dig c) 0

/-- Groups of digits written with single underscores between them. -/
def underscored : List (List Nat) → List Nat
  | [] => []
  | [g] => g
  | g :: r => g ++ 95 :: underscored r

/-- A non-empty list of non-empty groups of digits of the base. -/
def DigitGroups (base : Nat) (gs : List (List Nat)) : Prop :=
  gs ≠ [] ∧ (∀ g ∈ gs, g ≠ []) ∧ ∀ g ∈ gs, ∀ c ∈ g, IsDigit base c

/-- A decimal number has no superfluous leading zero. -/
def NoLeadingZero (ds : List Nat) : Prop := ds = [48] ∨ ds.head? ≠ some 48

/-- every underscore stands between two digits of the base -/
def UnderscoresBetweenDigits (base : Nat) (s : List Nat) : Prop :=
  ∀ a b, s = a ++ 95 :: b → (∃ a' x, a = a' ++ [x] ∧ IsDigit base x) ∧ (∃ y b', b = y :: b' ∧ IsDigit base y)

/-- a sign directly followed by decimal digits only: `+5`, `-120` -/
def SignAndDigits (s : List Nat) : Prop :=
  ∃ sg ds, s = sg :: ds ∧ (sg = 43 ∨ sg = 45) ∧ ds ≠ [] ∧ ∀ c ∈ ds, IsDigit 10 c

/-- printable ASCII text -/
def Printable (s : List Nat) : Prop := ∀ c ∈ s, 32 ≤ c ∧ c < 127

/-- The integer literals of TOML, with the number each denotes. -/
inductive IntegerLiteral : List Nat → Int → Prop
  | decimal (gs) (h : DigitGroups 10 gs) (hz : NoLeadingZero gs.flatten) :
      IntegerLiteral (underscored gs) (positional 10 gs.flatten)
  | plus (gs) (h : DigitGroups 10 gs) (hz : NoLeadingZero gs.flatten) :
      IntegerLiteral (43 :: underscored gs) (positional 10 gs.flatten)
  | minus (gs) (h : DigitGroups 10 gs) (hz : NoLeadingZero gs.flatten) :
      IntegerLiteral (45 :: underscored gs) (-(positional 10 gs.flatten : Int))
  | binary (gs) (h : DigitGroups 2 gs) : IntegerLiteral (48 :: 98 :: underscored gs) (positional 2 gs.flatten)
  | octal (gs) (h : DigitGroups 8 gs) : IntegerLiteral (48 :: 111 :: underscored gs) (positional 8 gs.flatten)
  | hex (gs) (h : DigitGroups 16 gs) : IntegerLiteral (48 :: 120 :: underscored gs) (positional 16 gs.flatten)

end Spec
