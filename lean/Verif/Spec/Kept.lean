import Verif.Spec.Calm
import Verif.Spec.TomlDoc
/-!
# Texts of TOML that come back unchanged

A grammar of TOML texts in which reading and writing loses nothing (C01), whatever the order of the headers. It differs from the grammar of
TOML (`Spec.Toml`, `Spec.TomlDoc`) in this: headers come in any order; nothing is said about which keys and tables may come together;
and the blanks that the code gives up are excluded. `#` is 35, `,` is 44, `=` is 61, `[` is 91, `]` is 93, `{` is 123, `}` is 125.
-/
namespace Tomlkit.Spec
open Tomlkit _root_.Spec

/-- a date, or a date and a time with a space between them: what the code reads together with the spaces that follow -/
def SpacedDate (s : List Nat) : Prop := (∃ d, TomlDate s d) ∨ ∃ v, TomlDateTime s v ∧ 32 ∈ s

mutual
/-- A value. No space follows a date inside an array or an inline table, and no blank stands before the comma of an inline table. -/
inductive KeptValue : List Nat → Prop
  | scalar (s v) (h : ValueText s v) (ha : s.head? ≠ some 91) (ht : s.head? ≠ some 123) : KeptValue s
  | array (s) (h : KeptElements false s) : KeptValue (91 :: s)
  | emptyTable (b) (h : Blanks b) : KeptValue (123 :: (b ++ [125]))
  | table (s) (h : KeptPairs s) : KeptValue (123 :: s)
/-- What stands after the opening bracket of an array or after a part of it. The flag tells that an element came last. -/
inductive KeptElements : Bool → List Nat → Prop
  | close (p) : KeptElements p [93]
  | blank (p c s) (hc : c = 32 ∨ c = 9) (h : KeptElements p s) : KeptElements p (c :: s)
  | newline (p nl s) (hn : Newline nl) (h : KeptElements p s) : KeptElements p (nl ++ s)
  | comment (p cm nl s) (hc : ∀ c ∈ cm, NotControl c) (hn : Newline nl) (h : KeptElements p s) : KeptElements p (35 :: (cm ++ (nl ++ s)))
  | comma (s) (h : KeptElements false s) : KeptElements true (44 :: s)
  | elem (e s) (he : KeptValue e) (hd : SpacedDate e → s.head? ≠ some 32) (h : KeptElements true s) : KeptElements false (e ++ s)
/-- What stands after the opening brace of an inline table that is not empty, or after a comma in it. -/
inductive KeptPairs : List Nat → Prop
  | last (key path b3 e b4) (hk : DottedText key path) (h3 : Blanks b3) (he : KeptValue e) (h4 : Blanks b4)
      (hd : SpacedDate e → b4.head? ≠ some 32) : KeptPairs (key ++ 61 :: (b3 ++ (e ++ (b4 ++ [125]))))
  | more (key path b3 e s) (hk : DottedText key path) (h3 : Blanks b3) (he : KeptValue e) (h : KeptPairs s) :
      KeptPairs (key ++ 61 :: (b3 ++ (e ++ 44 :: s)))
end

/-- a header: of an array of tables or not, and its names with their spelling -/
abbrev Header := Bool × List (List Nat × List Nat)

/-- Lines of all kinds, with the headers among them in order. Between a date and a comment there are not first spaces and then tabs.
A header with more than two names is not indented; the first name of an array of tables comes again at most as the last one. -/
inductive KeptLines : List Nat → List Header → Prop
  | nil : KeptLines [] []
  | blank (b nl t hs) (hb : Blanks b) (hn : LineEnd nl t) (hne : b ++ nl ≠ []) (h : KeptLines t hs) : KeptLines (b ++ (nl ++ t)) hs
  | comment (b cm nl t hs) (hb : Blanks b) (hc : ∀ c ∈ cm, NotControl c) (hn : LineEnd nl t) (h : KeptLines t hs) :
      KeptLines (b ++ 35 :: (cm ++ (nl ++ t))) hs
  | pair (key path b3 e b4 cm nl t hs) (hk : DottedText key path) (h3 : Blanks b3) (he : KeptValue e) (h4 : Blanks b4)
      (hc : CommentText cm) (hn : LineEnd nl t) (hd : SpacedDate e → cm = [] ∨ 9 ∉ b4 ∨ b4.head? = some 9) (h : KeptLines t hs) :
      KeptLines (key ++ 61 :: (b3 ++ (e ++ (b4 ++ (cm ++ (nl ++ t)))))) hs
  | header (b0 key P b cm nl t hs) (h0 : Blanks b0) (hk : PathText key P) (hi : b0 = [] ∨ P.length ≤ 2) (hb : Blanks b)
      (hc : CommentText cm) (hn : LineEnd nl t) (h : KeptLines t hs) :
      KeptLines (b0 ++ 91 :: (key ++ 93 :: (b ++ (cm ++ (nl ++ t))))) ((false, P) :: hs)
  | arrayHeader (b0 key P b cm nl t hs) (h0 : Blanks b0) (hk : PathText key P) (hi : b0 = [] ∨ P.length ≤ 2)
      (hq : ∀ x m y, P = x :: (m ++ [y]) → ∀ z ∈ m, z.2 ≠ x.2) (hb : Blanks b)
      (hc : CommentText cm) (hn : LineEnd nl t) (h : KeptLines t hs) :
      KeptLines (b0 ++ 91 :: 91 :: (key ++ 93 :: 93 :: (b ++ (cm ++ (nl ++ t))))) ((true, P) :: hs)

/-- Names that occur in a dotted header or in the header of an array of tables are spelled in one way in all headers. -/
def SpelledOnce (hs : List Header) : Prop :=
  ∀ h ∈ hs, ∀ h' ∈ hs, 2 ≤ h.2.length ∨ h.1 = true → ∀ x ∈ h.2, ∀ y ∈ h'.2, x.2 = y.2 → x.1 = y.1

/-- Between two headers below a table no array of tables begins outside of it, and between two elements of an array of tables no table
begins outside of the tables that contain the array. -/
def NotTorn (hs : List Header) : Prop :=
  ∀ (i j k : Nat) (a1 : Bool) P1 (a2 : Bool) P2 (a3 : Bool) P3, i < j → j < k → hs[i]? = some (a1, P1) → hs[j]? = some (a2, P2) → hs[k]? = some (a3, P3) →
    a2 = true ∨ (a1 = true ∧ a3 = true ∧ names P1 = names P3) → ∀ p, p <+: names P1 → p <+: names P3 → p <+: names P2

end Tomlkit.Spec
