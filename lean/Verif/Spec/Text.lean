/-!
# Specification: text

Definitions here do not mention the model. A text is the list of its code points.
-/
namespace Spec

/-- A control character of the TOML grammar. -/
def Control (c : Nat) : Prop := c < 32 ∨ c = 127

/-- Text that can stand between double quotes on one line: a backslash always takes the next character with it,
no other character is a quote, and no character is a control character. -/
def SafeBetweenQuotes : List Nat → Prop
  | [] => True
  | 92 :: c :: r => ¬ Control c ∧ SafeBetweenQuotes r
  | c :: r => c ≠ 34 ∧ c ≠ 92 ∧ ¬ Control c ∧ SafeBetweenQuotes r

/-- The text begins with a line break of the grammar. -/
def StartsWithNewline (s : List Nat) : Prop := (∃ r, s = 10 :: r) ∨ (∃ r, s = 13 :: 10 :: r)

/-- what remains after removing one line break at the beginning, if there is one -/
def withoutFirstNewline : List Nat → List Nat
  | 10 :: r => r
  | 13 :: 10 :: r => r
  | s => s

/-- the one-letter escapes of TOML: letter after the backslash, character it stands for -/
def simpleEscapes : List (Nat × Nat) := [(98, 8), (116, 9), (110, 10), (102, 12), (114, 13), (34, 34), (92, 92)]

/-- The text between the quotes of a one-line basic string, and the string it denotes. `uni n ds c` says which groups
`ds` of `n` characters after `\u` (n = 4) or `\U` (n = 8) are accepted, and the character each denotes. -/
inductive BasicBody (uni : Nat → List Nat → Nat → Prop) : List Nat → List Nat → Prop
  | nil : BasicBody uni [] []
  | char (c o v) : ¬ (Control c ∧ c ≠ 9) → c ≠ 34 → c ≠ 92 → BasicBody uni o v → BasicBody uni (c :: o) (c :: v)
  | esc (x c o v) : (x, c) ∈ simpleEscapes → BasicBody uni o v → BasicBody uni (92 :: x :: o) (c :: v)
  | uni4 (ds c o v) : ds.length = 4 → uni 4 ds c → BasicBody uni o v → BasicBody uni (92 :: 117 :: (ds ++ o)) (c :: v)
  | uni8 (ds c o v) : ds.length = 8 → uni 8 ds c → BasicBody uni o v → BasicBody uni (92 :: 85 :: (ds ++ o)) (c :: v)

/-- a text that means itself between double quotes: no quote, no backslash, no control character except tab -/
def PlainBasic (t : List Nat) : Prop := ∀ c ∈ t, ¬ (Control c ∧ c ≠ 9) ∧ c ≠ 34 ∧ c ≠ 92

/-- a text that may stand between single quotes -/
def PlainLiteral (t : List Nat) : Prop := ∀ c ∈ t, ¬ (Control c ∧ c ≠ 9) ∧ c ≠ 39

end Spec
