/-!
# Specification: lines

A text is the list of its code points; `\n` is 10, `\r` is 13.
-/
namespace Spec

/-- every line break of the text is `\r\n` -/
def OnlyCrLf (s : List Nat) : Prop := ∀ a b, s = a ++ 10 :: b → ∃ a', a = a' ++ [13]

/-- no line break of the text is `\r\n` -/
def OnlyLf (s : List Nat) : Prop := ∀ a b, s ≠ a ++ 13 :: 10 :: b

/-- the text has a line break -/
def HasLine (s : List Nat) : Prop := 10 ∈ s

/-- The line number of position `i`: one plus the number of `\n` before it. -/
def lineOf (s : List Nat) (i : Nat) : Nat := 1 + (s.take i).count 10

/-- The column of position `i`: the number of characters since the last `\n` before it. -/
def columnOf (s : List Nat) (i : Nat) : Nat := ((s.take i).reverse.takeWhile (· != 10)).length

/-- no character other than `\n` counts as a line separator for Python's `str.splitlines` -/
def PlainLines (s : List Nat) : Prop :=
  ∀ c ∈ s, c ∉ [11, 12, 13, 28, 29, 30, 0x85, 0x2028, 0x2029]

end Spec
