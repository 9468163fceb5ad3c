import Verif.Model.Utils
import Verif.Spec.Toml
/-!
# Ordinary texts

A condition on the characters of a text under which reading and writing it loses nothing (C01). It speaks of
substrings only, not of the parser. The characters: 9 tab, 10 newline, 13 carriage return, 32 space, 44 `,`, 46 `.`,
61 `=`, 91 `[`, 92 backslash, 93 `]`, 123 `{`.
-/
namespace Tomlkit
open _root_.Spec Tomlkit.Spec

/-- The text contains a date or time `d`, followed by the white space `ws` (no tab, no newline) and then by `r`, where
`r` is empty or begins with a tab, newline, carriage return, `#`, comma or closing bracket. -/
structure PadDate (T d ws r : Str) : Prop where
  date : ∃ x, parseRfc3339 d = .ok x
  ne : ws ≠ []
  blank : ∀ c ∈ ws, isUniSpace c = true ∧ isDateEnd c = false
  sub : (d ++ (ws ++ r)) <:+ T
  stop : ∀ c q, r = c :: q → isDateEnd c = true

/-- Nowhere is `=`, with blanks between, followed by `[`: no value is an array. -/
def NoArray (T : Str) : Prop := ∀ ws, (∀ c ∈ ws, isSpaces c = true) → ¬ (61 :: (ws ++ [91])) <:+: T

/-- at the beginning of a line -/
def LineStart (pre : Str) : Prop := pre = [] ∨ ∃ p, pre = p ++ [10]

/-- The values of the text give nothing up. -/
structure CalmValues (T : Str) : Prop where
  /-- a carriage return is followed by a newline -/
  cr : ∀ p r, T = p ++ 13 :: r → ∃ q, r = 10 :: q
  /-- inline tables do not occur together with arrays, and no comma follows a blank -/
  brace : 123 ∉ T ∨ (NoArray T ∧ ∀ b, isSpaces b = true → ¬ [b, 44] <:+: T)
  /-- white space after a date is not followed by a tab -/
  tab : ∀ d ws r, ¬ PadDate T d ws (9 :: r)
  /-- with arrays or inline tables, no date has white space behind it -/
  date : (NoArray T ∧ 123 ∉ T) ∨ ∀ d ws r, ¬ PadDate T d ws r

/-! ### headers -/

/-- Names joined by dots, each with its spelling (the blanks around it included): `x . "y"` is `x ` for x and ` "y"` for y. -/
inductive PathText : List Nat → List (List Nat × List Nat) → Prop
  | one (b1 s k b2) (h1 : Blanks b1) (hk : KeyText s k) (h2 : Blanks b2) : PathText (b1 ++ (s ++ b2)) [(b1 ++ (s ++ b2), k)]
  | more (b1 s k b2 r ks) (h1 : Blanks b1) (hk : KeyText s k) (h2 : Blanks b2) (h : PathText r ks) :
      PathText (b1 ++ (s ++ b2) ++ 46 :: r) ((b1 ++ (s ++ b2), k) :: ks)

/-- `[` and then `w` is a header, of an array of tables if `aot`. -/
def HeadText (w : List Nat) (aot : Bool) (P : List (List Nat × List Nat)) : Prop :=
  ∃ H r, PathText H P ∧ w = if aot then 91 :: (H ++ 93 :: 93 :: r) else H ++ 93 :: r

/-- Character number `n` of the text begins a line that looks like this header; it may be indented. -/
def HeaderAt (T : Str) (n : Nat) (aot : Bool) (P : List (List Nat × List Nat)) : Prop :=
  ∃ pre ind w, T = pre ++ (ind ++ 91 :: w) ∧ pre.length = n ∧ LineStart pre ∧ (∀ c ∈ ind, isSpaces c = true) ∧ HeadText w aot P

/-- the names, without their spelling -/
def names (P : List (List Nat × List Nat)) : List (List Nat) := P.map Prod.snd

/-- no name, or a name and then a comma (as in a line of an array) -/
def NoName (w : List Nat) : Prop :=
  (∃ b c r, Blanks b ∧ w = b ++ c :: r ∧ c ∈ [10, 13, 35, 44, 91, 93, 123]) ∨
  ∃ b s k b' r, Blanks b ∧ KeyText s k ∧ Blanks b' ∧ w = b ++ (s ++ (b' ++ 44 :: r))

/-- `[` and then `w` cannot be a header. -/
def NoHead (w : List Nat) : Prop := (w.head? ≠ some 91 ∧ NoName w) ∨ ∃ w', w = 91 :: w' ∧ NoName w'

/-- ... and the headers neither. -/
structure Calm (T : Str) : Prop extends CalmValues T where
  /-- A line that begins, after blanks, with `[` cannot be a header; or it has no second `[` there, no dot and no backslash, and there are no
  arrays of tables in the text; or it is a header, not indented if it has more than two names, and not one of an array of tables whose
  first name comes again before its last. -/
  head : ∀ pre ind w, T = pre ++ (ind ++ 91 :: w) → LineStart pre → (∀ c ∈ ind, isSpaces c = true) →
    NoHead w ∨
    (w.head? ≠ some 91 ∧ 46 ∉ w.takeWhile (· != 10) ∧ 92 ∉ w.takeWhile (· != 10) ∧ ∀ n P, ¬ HeaderAt T n true P) ∨
    ∃ aot P, HeadText w aot P ∧ (ind = [] ∨ P.length ≤ 2) ∧ (aot = true → ∀ a m b, P = a :: (m ++ [b]) → ∀ q ∈ m, q.2 ≠ a.2)
  /-- the names of dotted headers and arrays of tables are spelled in one way -/
  spelling : ∀ n aot P n' aot' P', HeaderAt T n aot P → HeaderAt T n' aot' P' → 2 ≤ P.length ∨ aot = true →
    ∀ q ∈ P, ∀ q' ∈ P', q.2 = q'.2 → q.1 = q'.1
  /-- between two headers of the same table no array of tables begins elsewhere, and between two headers of the same array of tables no
  other table -/
  grouped : ∀ n1 a1 P1 n2 a2 P2 n3 a3 P3, n1 < n2 → n2 < n3 → HeaderAt T n1 a1 P1 → HeaderAt T n2 a2 P2 → HeaderAt T n3 a3 P3 →
    a2 = true ∨ (a1 = true ∧ a3 = true ∧ names P1 = names P3) → ∀ p, p <+: names P1 → p <+: names P3 → p <+: names P2

end Tomlkit
