import Verif.Spec.Text
import Verif.Spec.Numbers
import Verif.Spec.Dates
import Verif.Model.Convert
import Verif.Spec.Nest
/-!
# Specification: the values of TOML 1.0

The grammar of values (toml.abnf) with the Python value each text denotes. A text is the list of its code points: tab 9, line feed 10,
carriage return 13, space 32, `"` 34, `#` 35, `'` 39, `+` 43, `,` 44, `-` 45, `.` 46, `0` 48, `=` 61, `E` 69, `[` 91, `\` 92, `]` 93,
`_` 95, `e` 101, `{` 123, `}` 125.

Three deviations from TOML, all on the side of fewer texts: the calendar is Python's (no year 0, no second 60); a float that is zero in
front of the exponent writes the exponent with a small `e` (`0E5` is refused by the code); an escape `\U` is used for scalar values
only, as TOML says (the code accepts more).
-/
namespace Tomlkit.Spec
open Tomlkit _root_.Spec

/-! ## Blanks, newlines, comments -/

/-- a line break -/
def Newline (s : List Nat) : Prop := s = [10] ∨ s = [13, 10]

/-- spaces and tabs -/
def Blanks (s : List Nat) : Prop := ∀ c ∈ s, c = 32 ∨ c = 9

/-- spaces, tabs and line breaks -/
inductive BlanksAndNewlines : List Nat → Prop
  | nil : BlanksAndNewlines []
  | blank (c s) : c = 32 ∨ c = 9 → BlanksAndNewlines s → BlanksAndNewlines (c :: s)
  | newline (nl s) : Newline nl → BlanksAndNewlines s → BlanksAndNewlines (nl ++ s)

/-- a character that may stand in a comment or in a literal string: no control character except tab -/
def NotControl (c : Nat) : Prop := ¬ (Control c ∧ c ≠ 9)

/-! ## Strings -/

/-- the digits of a unicode escape, and the character: a Unicode scalar value -/
def HexEscape (n : Nat) (ds : List Nat) (c : Nat) : Prop :=
  ds.length = n ∧ (∀ d ∈ ds, IsDigit 16 d) ∧ c = positional 16 ds ∧ c ≤ 0x10FFFF ∧ ¬ (0xD800 ≤ c ∧ c ≤ 0xDFFF)

/-- The text between the delimiters of a multi-line basic string after its first line break, and the string it denotes. The number
counts the unescaped quotes directly before: three never come together, and at most two stand before the closing delimiter. -/
inductive MultilineBasic : Nat → List Nat → List Nat → Prop
  | nil (k) : MultilineBasic k [] []
  | char (k c o v) : NotControl c → c ≠ 34 → c ≠ 92 → MultilineBasic 0 o v → MultilineBasic k (c :: o) (c :: v)
  | newline (k nl o v) : Newline nl → MultilineBasic 0 o v → MultilineBasic k (nl ++ o) (nl ++ v)
  | quote (k o v) : k < 2 → MultilineBasic (k + 1) o v → MultilineBasic k (34 :: o) (34 :: v)
  | esc (k x c o v) : (x, c) ∈ simpleEscapes → MultilineBasic 0 o v → MultilineBasic k (92 :: x :: o) (c :: v)
  | uni4 (k ds c o v) : HexEscape 4 ds c → MultilineBasic 0 o v → MultilineBasic k (92 :: 117 :: (ds ++ o)) (c :: v)
  | uni8 (k ds c o v) : HexEscape 8 ds c → MultilineBasic 0 o v → MultilineBasic k (92 :: 85 :: (ds ++ o)) (c :: v)
  /-- a backslash at the end of a line removes everything up to the next character that is no blank or line break -/
  | fold (k b nl w o v) : Blanks b → Newline nl → BlanksAndNewlines w → (∀ c, o.head? = some c → c ≠ 32 ∧ c ≠ 9 ∧ c ≠ 10 ∧ c ≠ 13) →
      MultilineBasic 0 o v → MultilineBasic k (92 :: (b ++ (nl ++ (w ++ o)))) v

/-- The same for a multi-line literal string. -/
inductive MultilineLiteral : Nat → List Nat → Prop
  | nil (k) : MultilineLiteral k []
  | char (k c o) : NotControl c → c ≠ 39 → MultilineLiteral 0 o → MultilineLiteral k (c :: o)
  | newline (k nl o) : Newline nl → MultilineLiteral 0 o → MultilineLiteral k (nl ++ o)
  | quote (k o) : k < 2 → MultilineLiteral (k + 1) o → MultilineLiteral k (39 :: o)

/-- The four kinds of strings. The line break directly after the opening delimiter of a multi-line string does not count. -/
inductive StringText : List Nat → List Nat → Prop
  | basic (o v) (h : BasicBody HexEscape o v) : StringText (34 :: (o ++ [34])) v
  | literal (s) (h : PlainLiteral s) : StringText (39 :: (s ++ [39])) s
  | multilineBasic (nl o v) (hn : nl = [] ∧ ¬ StartsWithNewline o ∨ Newline nl) (h : MultilineBasic 0 o v) :
      StringText ([34, 34, 34] ++ (nl ++ (o ++ [34, 34, 34]))) v
  | multilineLiteral (nl s) (hn : nl = [] ∧ ¬ StartsWithNewline s ∨ Newline nl) (h : MultilineLiteral 0 s) :
      StringText ([39, 39, 39] ++ (nl ++ (s ++ [39, 39, 39]))) s

/-! ## Numbers -/

/-- an exponent and its text in lower case without underscores -/
inductive ExponentText : List Nat → List Nat → Prop
  | mk (e sg gs) (he : e = 101 ∨ e = 69) (hs : sg = [] ∨ sg = [43] ∨ sg = [45]) (hd : DigitGroups 10 gs) :
      ExponentText (e :: (sg ++ underscored gs)) (101 :: (sg ++ gs.flatten))

/-- Float literals; the number is given by the literal itself in lower case and without underscores. -/
inductive FloatLiteral : List Nat → List Nat → Prop
  | point (sg ip fp) (hs : sg = [] ∨ sg = [43] ∨ sg = [45]) (hi : DigitGroups 10 ip) (hz : NoLeadingZero ip.flatten)
      (hf : DigitGroups 10 fp) : FloatLiteral (sg ++ (underscored ip ++ 46 :: underscored fp)) (sg ++ (ip.flatten ++ 46 :: fp.flatten))
  | pointExp (sg ip fp ex exc) (hs : sg = [] ∨ sg = [43] ∨ sg = [45]) (hi : DigitGroups 10 ip) (hz : NoLeadingZero ip.flatten)
      (hf : DigitGroups 10 fp) (he : ExponentText ex exc) :
      FloatLiteral (sg ++ (underscored ip ++ 46 :: (underscored fp ++ ex))) (sg ++ (ip.flatten ++ 46 :: (fp.flatten ++ exc)))
  | exp (sg ip ex exc) (hs : sg = [] ∨ sg = [43] ∨ sg = [45]) (hi : DigitGroups 10 ip) (hz : NoLeadingZero ip.flatten)
      (he : ExponentText ex exc) (h0 : ip.flatten = [48] → ex.head? = some 101) :
      FloatLiteral (sg ++ (underscored ip ++ ex)) (sg ++ (ip.flatten ++ exc))
  /-- `inf` -/
  | inf (sg) (hs : sg = [] ∨ sg = [43] ∨ sg = [45]) : FloatLiteral (sg ++ [105, 110, 102]) (sg ++ [105, 110, 102])
  /-- `nan` -/
  | nan (sg) (hs : sg = [] ∨ sg = [43] ∨ sg = [45]) : FloatLiteral (sg ++ [110, 97, 110]) (sg ++ [110, 97, 110])

/-! ## Dates and times -/

/-- `YYYY-MM-DD`, a day that exists -/
def TomlDate (s : List Nat) (d : PDate) : Prop :=
  s.length = 10 ∧ DateText s d.year d.month d.day ∧ ValidDate d.year d.month d.day

/-- `HH:MM:SS` with an optional fraction -/
def TomlTime (s : List Nat) (t : PTime) : Prop :=
  TimeText s t.hour t.minute t.second t.micro ∧ ValidTime t.hour t.minute t.second t.micro

/-- a date, `T`, `t` or a space, a time, an optional offset -/
def TomlDateTime (s : List Nat) (v : PDateTime) : Prop :=
  ∃ ds sep ts zs, s = ds ++ sep :: (ts ++ zs) ∧ (sep = 84 ∨ sep = 116 ∨ sep = 32) ∧ TomlDate ds v.date ∧ TomlTime ts v.time ∧
    ZoneText [43] zs v.tz

/-! ## Keys -/

/-- a character of a bare key: letter, digit, `-`, `_` -/
def BareChar (c : Nat) : Prop := (65 ≤ c ∧ c ≤ 90) ∨ (97 ≤ c ∧ c ≤ 122) ∨ (48 ≤ c ∧ c ≤ 57) ∨ c = 45 ∨ c = 95

/-- a key without dots, and the name it denotes -/
inductive KeyText : List Nat → List Nat → Prop
  | bare (s) (hne : s ≠ []) (h : ∀ c ∈ s, BareChar c) : KeyText s s
  | basic (o v) (h : BasicBody HexEscape o v) : KeyText (34 :: (o ++ [34])) v
  | literal (s) (h : PlainLiteral s) : KeyText (39 :: (s ++ [39])) s

/-- names joined by dots, with blanks around them, and the list of the names -/
inductive DottedText : List Nat → List (List Nat) → Prop
  | one (b1 s k b2) (h1 : Blanks b1) (hk : KeyText s k) (h2 : Blanks b2) : DottedText (b1 ++ (s ++ b2)) [k]
  | more (b1 s k b2 r ks) (h1 : Blanks b1) (hk : KeyText s k) (h2 : Blanks b2) (h : DottedText r ks) :
      DottedText (b1 ++ (s ++ (b2 ++ 46 :: r))) (k :: ks)

/-! ## Values -/

mutual
/-- The text denotes the value. -/
inductive ValueText : List Nat → PyVal → Prop
  /-- `true` -/
  | true : ValueText [116, 114, 117, 101] (.bool Bool.true)
  /-- `false` -/
  | false : ValueText [102, 97, 108, 115, 101] (.bool Bool.false)
  | int (s i) (h : IntegerLiteral s i) : ValueText s (.int i)
  | float (s t) (h : FloatLiteral s t) : ValueText s (.float t)
  | str (s v) (h : StringText s v) : ValueText s (.str v)
  | date (s d) (h : TomlDate s d) : ValueText s (.date d)
  | time (s t) (h : TomlTime s t) : ValueText s (.time t)
  | datetime (s v) (h : TomlDateTime s v) : ValueText s (.datetime v)
  | array (s l) (h : ElementsText Bool.false s l) : ValueText (91 :: s) (.list l)
  | emptyTable (b) (h : Blanks b) : ValueText (123 :: (b ++ [125])) (.dict [])
  | table (s L l) (h : PairsText s L) (hn : Nest L l) : ValueText (123 :: s) (.dict l)
/-- What stands after the opening bracket of an array or after a part of it. The flag tells that an element came last and no comma
since. -/
inductive ElementsText : Bool → List Nat → List PyVal → Prop
  | close (p) : ElementsText p [93] []
  | blank (p c s l) (hc : c = 32 ∨ c = 9) (h : ElementsText p s l) : ElementsText p (c :: s) l
  | newline (p nl s l) (hn : Newline nl) (h : ElementsText p s l) : ElementsText p (nl ++ s) l
  | comment (p cm nl s l) (hc : ∀ c ∈ cm, NotControl c) (hn : Newline nl) (h : ElementsText p s l) :
      ElementsText p (35 :: (cm ++ (nl ++ s))) l
  | comma (s l) (h : ElementsText Bool.false s l) : ElementsText Bool.true (44 :: s) l
  | elem (e v s l) (he : ValueText e v) (h : ElementsText Bool.true s l) : ElementsText Bool.false (e ++ s) (v :: l)
/-- What stands after the opening brace of an inline table that is not empty, or after a comma in it: on one line, no comma after the
last pair. The keys may be dotted. -/
inductive PairsText : List Nat → List (List Str × PyVal) → Prop
  | last (key path b1 e v b2) (hk : DottedText key path) (h1 : Blanks b1) (he : ValueText e v) (h2 : Blanks b2) :
      PairsText (key ++ 61 :: (b1 ++ (e ++ (b2 ++ [125])))) [(path, v)]
  | more (key path b1 e v b2 s L) (hk : DottedText key path) (h1 : Blanks b1) (he : ValueText e v) (h2 : Blanks b2) (h : PairsText s L) :
      PairsText (key ++ 61 :: (b1 ++ (e ++ (b2 ++ 44 :: s)))) ((path, v) :: L)
end

end Tomlkit.Spec
