import Verif.Spec.Toml
/-!
# Specification: where two texts of multi-line strings meet

`s + t` writes the text of `t` directly behind the text of `s`. Three things can go wrong at the seam: quotes on both sides run together,
a backslash at the end of the last line of `s` removes the blanks and line breaks in front of `t`, and a line break of `t` becomes the
first character of the text, where it does not count.
-/
namespace Tomlkit.Spec
open Tomlkit _root_.Spec

/-- the text `o` of the string `v` ends with a backslash at the end of its line: the next blanks and line breaks would be removed -/
def EndsFolded (o v : List Nat) : Prop :=
  ∃ p b nl w, MultilineBasic 0 p v ∧ Blanks b ∧ Newline nl ∧ BlanksAndNewlines w ∧ o = p ++ 92 :: (b ++ (nl ++ w))

/-- `t` starts with a blank or a line break -/
def StartsBlank (t : List Nat) : Prop := ∃ c, t.head? = some c ∧ (c = 32 ∨ c = 9 ∨ c = 10 ∨ c = 13)

/-- no quotes on both sides of the seam -/
def NoQuotesMeet (q : Nat) (o t : List Nat) : Prop := ¬ (o.getLast? = some q ∧ t.head? = some q)

end Tomlkit.Spec
