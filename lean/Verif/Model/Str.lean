/-!
# Python strings and the character classes of tomlkit

A Python `str` is modelled as the list of its code points (`Nat`), so that lone surrogates, which Python
strings may contain, are represented too.
-/
namespace Tomlkit

/-- A Python character (a code point). -/
macro "Chr" : term => `(Nat)
/-- A Python `str`. -/
macro "Str" : term => `(List Nat)

open Lean in
/-- `t!"abc"` is the model string of the characters written. -/
macro "t!" s:str : term => do
  let cs := (s.getString.toList.map fun c => Syntax.mkNumLit (toString c.toNat)).toArray
  `(([$cs,*] : List Nat))

open Lean in
/-- `c!"a"` is the code point of the single character written. -/
macro "c!" s:str : term => do
  match s.getString.toList with
  | [c] => return Syntax.mkNumLit (toString c.toNat)
  | _ => Macro.throwError "c! expects one character"

/-- `needle in hay` for strings (Python substring test). -/
def isInfix (needle : Str) : Str → Bool
  | [] => needle.isEmpty
  | c :: cs => needle.isPrefixOf (c :: cs) || isInfix needle cs

/-- `"\n" in s`. -/
def hasNl (s : Str) : Bool := s.contains 10

/-- Python `str.isspace` characters (also what `str.strip()` removes); CPython 3.11 / Unicode 14 table. -/
def isUniSpace (c : Chr) : Bool :=
  (9 ≤ c && c ≤ 13) || (28 ≤ c && c ≤ 32) || c == 0x85 || c == 0xa0 || c == 0x1680 ||
  (0x2000 ≤ c && c ≤ 0x200a) || c == 0x2028 || c == 0x2029 || c == 0x202f || c == 0x205f || c == 0x3000

/-- Code points of the non-ASCII decimal digits zero (Unicode category Nd); each starts a run of ten. -/
def uniZeros : List Nat :=
  [1632, 1776, 1984, 2406, 2534, 2662, 2790, 2918, 3046, 3174, 3302, 3430, 3558, 3664, 3792, 3872, 4160,
   4240, 6112, 6160, 6470, 6608, 6784, 6800, 6992, 7088, 7232, 7248, 42528, 43216, 43264, 43472, 43504,
   43600, 44016, 65296, 66720, 68912, 69734, 69872, 69942, 70096, 70384, 70736, 70864, 71248, 71360, 71472,
   71904, 72016, 72784, 73040, 73120, 92768, 92864, 93008, 120782, 120792, 120802, 120812, 120822, 123200,
   123632, 125264, 130032]

/-- Decimal value of a character of Unicode category Nd (`unicodedata.decimal`). -/
def uniDecimal (c : Chr) : Option Nat :=
  if 48 ≤ c && c ≤ 57 then some (c - 48)
  else (uniZeros.find? fun z => z ≤ c && c < z + 10).map fun z => c - z

/-- `str.strip()` restricted to what it does on both ends: drop white space. -/
def strip (s : Str) : Str := ((s.dropWhile isUniSpace).reverse.dropWhile isUniSpace).reverse
/-- `str.rstrip()`. -/
def rstrip (s : Str) : Str := (s.reverse.dropWhile isUniSpace).reverse
/-- `str.rstrip(chars)`. -/
def rstripChars (chars : Str) (s : Str) : Str := (s.reverse.dropWhile fun c => chars.contains c).reverse

/-! ## toml_char.py -/

/-- ASCII letter. -/
def isAsciiLetter (c : Chr) : Bool := (97 ≤ c && c ≤ 122) || (65 ≤ c && c ≤ 90)
/-- ASCII digit: `c in string.digits`. -/
def isDigit (c : Chr) : Bool := 48 ≤ c && c ≤ 57
/-- `TOMLChar.is_bare_key_char`, toml_char.py:11,18-22. -/
def isBareChar (c : Chr) : Bool := isAsciiLetter c || isDigit c || c == 45 || c == 95
/-- `TOMLChar.is_kv_sep`, toml_char.py:12,24-28: one of `= \t`. -/
def isKvSep (c : Chr) : Bool := c == 61 || c == 32 || c == 9
/-- `TOMLChar.is_spaces`, toml_char.py:14,48-52. -/
def isSpaces (c : Chr) : Bool := c == 32 || c == 9
/-- `TOMLChar.is_nl`, toml_char.py:15,42-46. -/
def isNl (c : Chr) : Bool := c == 10 || c == 13
/-- `TOMLChar.is_ws`, toml_char.py:16,36-40. -/
def isWs (c : Chr) : Bool := isSpaces c || isNl c
/-- `c in " \t\r"`, parser.py:218 and 277. -/
def isSpTabCr (c : Chr) : Bool := c == 32 || c == 9 || c == 13
/-- `c in " \t\n\r#,]}"`, the delimiters that end a bare value, parser.py:447, 459, 1098. -/
def isValueEnd (c : Chr) : Bool :=
  c == 32 || c == 9 || c == 10 || c == 13 || c == 35 || c == 44 || c == 93 || c == 125
/-- `c in "\t\n\r#,]}"`, parser.py:492: what ends the text after a date. -/
def isDateEnd (c : Chr) : Bool :=
  c == 9 || c == 10 || c == 13 || c == 35 || c == 44 || c == 93 || c == 125
/-- Control characters: `CONTROL_CHARS`, _utils.py:98, and the parser's test `code == CHR_DEL or code <= 0x1f`. -/
def isCtrl (c : Chr) : Bool := c ≤ 0x1f || c == 0x7f

end Tomlkit
