/-!
# Specification: the texts `repr()` gives for a float
-/
namespace Spec

/-- a decimal digit character -/
def Dec (c : Nat) : Prop := 48 ≤ c ∧ c ≤ 57

/-- a non-empty string of decimal digits -/
def DecText (s : List Nat) : Prop := s ≠ [] ∧ ∀ c ∈ s, Dec c

/-- an exponent: `e`, an optional sign, digits -/
inductive ExpText : List Nat → Prop
  | mk (sg ds) (hs : sg = [] ∨ sg = [43] ∨ sg = [45]) (hd : DecText ds) : ExpText (101 :: (sg ++ ds))

/-- the text of a finite, non-negative float: `12.5`, `1e+16`, `1.5e-07` -/
inductive FloatBody : List Nat → Prop
  | point (ip fp ex) (hi : DecText ip) (hz : ip = [48] ∨ ip.head? ≠ some 48) (hf : DecText fp) (he : ex = [] ∨ ExpText ex) :
      FloatBody (ip ++ 46 :: (fp ++ ex))
  | exp (ip ex) (hi : DecText ip) (hz : ip = [48] ∨ ip.head? ≠ some 48) (he : ExpText ex) : FloatBody (ip ++ ex)

/-- What Python's `repr(x)` can be for a float `x`: a finite number, `inf` or `nan`, with a minus sign if negative. -/
def FloatRepr (s : List Nat) : Prop :=
  ∃ sg body, s = sg ++ body ∧ (sg = [] ∨ sg = [45]) ∧ (FloatBody body ∨ body = [105, 110, 102] ∨ body = [110, 97, 110])

end Spec
