import Verif.Model.Items
/-!
# _utils.py: escaping, dates and times; the Python number constructors used by the parser
-/
namespace Tomlkit

/-! ## escape_string, _utils.py:98-150 -/

/-- One lower-case hexadecimal digit. -/
def hexDigit (n : Nat) : Chr := if n < 10 then 48 + n else 87 + n

/-- `_unicode_escape`, _utils.py:120-121, for one character below 0x10000 (only control characters reach it). -/
def unicodeEscape (c : Chr) : Str :=
  [92, 117, hexDigit (c / 4096 % 16), hexDigit (c / 256 % 16), hexDigit (c / 16 % 16), hexDigit (c % 16)]

/-- `_compact_escapes.get(seq) or _unicode_escape(seq)`, _utils.py:99-121, 143. -/
def escOf (seq : Str) : Str :=
  if seq = [8] then [92, 98]
  else if seq = [9] then [92, 116]
  else if seq = [10] then [92, 110]
  else if seq = [12] then [92, 102]
  else if seq = [13] then [92, 114]
  else if seq = [34] then [92, 34]
  else if seq = [92] then [92, 92]
  else if seq = [34, 34, 34] then [34, 34, 92, 34]
  else seq.flatMap unicodeEscape

/-- `s[a:b]`. -/
def slice (s : Str) (a b : Nat) : Str := (s.drop a).take (b - a)

/-- The local variables of `escape_string`. -/
structure EscSt where
  start : Nat
  i : Nat
  res : Str

/-- `flush`, _utils.py:130-134: the text it appends to `res`. -/
def escFlush (s : Str) (st : EscSt) : Str := if st.start ≠ st.i then slice s st.start st.i else []

/-- One `seq` of the inner loop, _utils.py:140-144. -/
def escStep (s : Str) (st : EscSt) (seq : Str) : EscSt :=
  if seq.isPrefixOf (s.drop st.i) then
    { start := st.i + seq.length
      res := st.res ++ (escFlush s st ++ escOf seq)
      i := st.i + (seq.length - 1) }
  else st

/-- The `while i < len(s)` loop, _utils.py:139-145, one fuel unit per iteration. -/
def escLoop (s : Str) (found : List Str) : Nat → EscSt → EscSt
  | 0, st => st
  | n + 1, st =>
    if st.i < s.length then
      let st := found.foldl (escStep s) st
      escLoop s found n { st with i := st.i + 1 }
    else st

/-- `escape_string`, _utils.py:124-150. `seqs` is the collection of sequences *in the order in which Python
iterates the set* `found_sequences`; `C04` shows that the order does not matter. -/
def escapeString (s : Str) (seqs : List Str) : Str :=
  let found := seqs.filter fun q => isInfix q s
  let st := escLoop s found s.length { start := 0, i := 0, res := [] }
  st.res ++ escFlush s st

/-- `CONTROL_CHARS`, _utils.py:98, as one-character sequences. -/
def ctrlSeqs : List Str := ((List.range 32).map fun c => [c]) ++ [[127]]

/-- `_basic_escapes`, _utils.py:117. -/
def basicEscapes : List Str := ctrlSeqs ++ [[34], [92]]

/-- `StringType.escaped_sequences`, items.py:250-260. -/
def StrType.escapedSequences : StrType → List Str
  | .slb => ctrlSeqs ++ [[92], [34]]
  | .mlb => (ctrlSeqs ++ [[92], [34, 34, 34]]).filter fun q => q ≠ [10] && q ≠ [13]
  | .sll => []
  | .mll => []

/-- `StringType.invalid_sequences`, items.py:262-272. -/
def StrType.invalidSequences : StrType → List Str
  | .slb => []
  | .mlb => []
  | .sll => (ctrlSeqs.filter fun q => q ≠ [9]) ++ [[39]]
  | .mll => ((ctrlSeqs.filter fun q => q ≠ [9]) ++ [[39, 39, 39]]).filter fun q => q ≠ [10] && q ≠ [13]

/-! ## Python's `int` and `float` constructors on text -/

/-- ASCII white space, as skipped by `int()` and `float()`. -/
def isAsciiSpace (c : Chr) : Bool := (9 ≤ c && c ≤ 13) || c == 32

/-- CPython `_PyUnicode_TransformDecimalAndSpaceToASCII`: Unicode white space and decimal digits become ASCII. -/
def normNum (s : Str) : Str :=
  s.map fun c =>
    if c < 127 then c else if isUniSpace c then 32
    else match uniDecimal c with
      | some d => 48 + d
      | none => 63

/-- strip ASCII white space on both ends -/
def stripAscii (s : Str) : Str := ((s.dropWhile isAsciiSpace).reverse.dropWhile isAsciiSpace).reverse

/-- Value of an alphanumeric digit. -/
def digitVal (c : Chr) : Option Nat :=
  if 48 ≤ c && c ≤ 57 then some (c - 48)
  else if 97 ≤ c && c ≤ 122 then some (c - 87)
  else if 65 ≤ c && c ≤ 90 then some (c - 55)
  else none

/-- Value of a digit in a base. -/
def baseDigit (base : Nat) (c : Chr) : Option Nat :=
  match digitVal c with
  | some d => if d < base then some d else none
  | none => none

/-- The digits of `int(s, base)`: single underscores allowed between digits. `afterDigit` tells whether the
previous character was a digit. -/
def intDigits (base : Nat) (afterDigit : Bool) (acc : Nat) : Str → Option Nat
  | [] => if afterDigit then some acc else none
  | c :: r =>
    if c = 95 then (if afterDigit then intDigits base false acc r else none)
    else match baseDigit base c with
      | some d => intDigits base true (acc * base + d) r
      | none => none

/-- Remove the prefix `0x`/`0o`/`0b` that fits the base, and one underscore after it. -/
def dropBasePrefix (base : Nat) (s : Str) : Str :=
  match s with
  | 48 :: x :: r =>
    if (base == 16 && (x == 120 || x == 88)) || (base == 8 && (x == 111 || x == 79))
        || (base == 2 && (x == 98 || x == 66)) then
      match r with
      | 95 :: r' => r'
      | _ => r
    else s
  | _ => s

/-- the optional sign of a number given to `int` or `float`: is it negative, and what follows -/
def intSign : Str → Bool × Str
  | 43 :: r => (false, r)
  | 45 :: r => (true, r)
  | s => (false, s)

/-- Python `int(s, base)` for base 2, 8, 10 or 16; `none` is `ValueError`. The limit of 4300 digits is not
modelled. -/
def pyInt (base : Nat) (s : Str) : Option Int :=
  let s := stripAscii (normNum s)
  match intDigits base false 0 (dropBasePrefix base (intSign s).2) with
  | some n => some (if (intSign s).1 then - (n : Int) else n)
  | none => none

/-- ASCII lower case (`str.lower` on the characters that matter here). -/
def lowerAscii (c : Chr) : Chr := if 65 ≤ c && c ≤ 90 then c + 32 else c

/-- exponent part of a float literal, up to the end -/
def floatExpOk : Str → Bool
  | [] => true
  | c :: r =>
    if c = 101 || c = 69 then
      let r := match r with
        | 43 :: r' => r'
        | 45 :: r' => r'
        | _ => r
      !r.isEmpty && r.all isDigit
    else false

/-- Does Python's `float(s)` accept the text (which contains no underscore here)? -/
def pyFloatOk (s : Str) : Bool :=
  let s := (intSign (stripAscii (normNum s))).2
  let l := s.map lowerAscii
  if l = t!"inf" || l = t!"infinity" || l = t!"nan" then true
  else
    let ip := s.takeWhile isDigit
    let r := s.dropWhile isDigit
    match r with
    | 46 :: r' =>
      let fp := r'.takeWhile isDigit
      (!ip.isEmpty || !fp.isEmpty) && floatExpOk (r'.dropWhile isDigit)
    | _ => !ip.isEmpty && floatExpOk r

/-! ## parse_rfc3339, _utils.py:16-95 -/

/-- What `$` accepts: the end, or a final newline. -/
def atDollar (s : Str) : Bool := s = [] || s = [10]

/-- `\d`: any Unicode decimal digit. -/
def isReDigit (c : Chr) : Bool := (uniDecimal c).isSome

/-- two characters of a class -/
def two (p q : Chr → Bool) : Str → Option (Str × Str)
  | a :: b :: r => if p a && q b then some ([a, b], r) else none
  | _ => none

/-- one given character -/
def lit (c : Chr) : Str → Option Str
  | a :: r => if a = c then some r else none
  | [] => none

/-- `[0-9]+` -/
def digits1 (s : Str) : Option (Str × Str) :=
  let d := s.takeWhile isDigit
  if d = [] then none else some (d, s.dropWhile isDigit)

/-- `(0[1-9]|1[012])` -/
def reMonth : Str → Option (Str × Str)
  | a :: b :: r =>
    if (a = 48 && 49 ≤ b && b ≤ 57) || (a = 49 && 48 ≤ b && b ≤ 50) then some ([a, b], r) else none
  | _ => none
/-- `(0[1-9]|[12][0-9]|3[01])` -/
def reDay : Str → Option (Str × Str)
  | a :: b :: r =>
    if (a = 48 && 49 ≤ b && b ≤ 57) || ((a = 49 || a = 50) && isDigit b) || (a = 51 && (b = 48 || b = 49))
    then some ([a, b], r) else none
  | _ => none
/-- `([01][0-9]|2[0-3])` -/
def reHour : Str → Option (Str × Str)
  | a :: b :: r =>
    if ((a = 48 || a = 49) && isDigit b) || (a = 50 && 48 ≤ b && b ≤ 51) then some ([a, b], r) else none
  | _ => none
/-- `([0-5][0-9])` -/
def reMinute : Str → Option (Str × Str)
  | a :: b :: r => if 48 ≤ a && a ≤ 53 && isDigit b then some ([a, b], r) else none
  | _ => none
/-- `([0-5][0-9]|60)` -/
def reSecond : Str → Option (Str × Str)
  | a :: b :: r =>
    if (48 ≤ a && a ≤ 53 && isDigit b) || (a = 54 && b = 48) then some ([a, b], r) else none
  | _ => none

/-- `(\.([0-9]+))?`: the fraction digits, if any. Greedy; giving digits back never helps, because what follows
must be a zone or the end. -/
def reFrac (s : Str) : Option Str × Str :=
  match s with
  | 46 :: r =>
    match digits1 r with
    | some (d, r') => (some d, r')
    | none => (none, s)
  | _ => (none, s)

/-- A matched zone: `Z`/`z`, or sign character, hours, minutes. Note that the class `[\+|\-]` of the code
contains `|`. -/
inductive Zone
  | utc
  | off (sign : Chr) (h m : Str)
deriving DecidableEq, Repr

/-- `(([Zz])|([\+|\-]([01][0-9]|2[0-3]):([0-5][0-9])))?` -/
def reZone (s : Str) : Option Zone × Str :=
  match s with
  | c :: r =>
    if c = 90 || c = 122 then (some .utc, r)
    else if c = 43 || c = 124 || c = 45 then
      match reHour r with
      | some (h, r1) =>
        match lit 58 r1 with
        | some r2 =>
          match reMinute r2 with
          | some (m, r3) => (some (.off c h m), r3)
          | none => (none, s)
        | none => (none, s)
      | none => (none, s)
    else (none, s)
  | [] => (none, s)

/-- The date group of `RFC_3339_LOOSE`, _utils.py:18: remaining text. -/
def looseDate (s : Str) : Option Str := do
  let (_, r) ← digits1 s
  let r ← lit 45 r
  let (_, r) ← two isReDigit isReDigit r
  let r ← lit 45 r
  let (_, r) ← two isReDigit isReDigit r
  return r

/-- `[Tt ]?` -/
def dropTimeSep : Str → Str
  | c :: r => if c = 84 || c = 116 || c = 32 then r else c :: r
  | [] => []

/-- The time group (group 5) of `RFC_3339_LOOSE` after the optional separator, _utils.py:20-23: remaining text. -/
def looseClock (s : Str) : Option Str := do
  let (_, r) ← two isReDigit isReDigit s
  let r ← lit 58 r
  let (_, r) ← two isReDigit isReDigit r
  let r ← lit 58 r
  let (_, r) ← two isReDigit isReDigit r
  let (_, r) := reFrac r
  let (_, r) := reZone r
  return r

/-- The time group (group 5) of `RFC_3339_LOOSE`, _utils.py:19-23: remaining text. -/
def looseTime (s : Str) : Option Str := looseClock (dropTimeSep s)

/-- `RFC_3339_LOOSE.match(raw)`, _utils.py:16-25: whether groups 1 and 5 took part. Dropping a matched date
group by backtracking cannot help: a time starts with two digits and a colon. -/
def matchLoose (s : Str) : Option (Bool × Bool) :=
  match looseDate s with
  | some r =>
    match looseTime r with
    | some r' => if atDollar r' then some (true, true) else if atDollar r then some (true, false) else none
    | none => if atDollar r then some (true, false) else none
  | none =>
    match looseTime s with
    | some r' => if atDollar r' then some (false, true) else none
    | none => if atDollar s then some (false, false) else none

/-- value of ASCII digits -/
def digitsNat (s : Str) : Nat := s.foldl (fun a c => a * 10 + (c - 48)) 0

/-- Days in a month of the proleptic Gregorian calendar. -/
def daysInMonth (y m : Nat) : Nat :=
  if m = 2 then (if y % 4 = 0 && (y % 100 != 0 || y % 400 = 0) then 29 else 28)
  else if m = 4 || m = 6 || m = 9 || m = 11 then 30 else 31

/-- The two builtin exceptions that the constructors of `datetime` raise. -/
inductive PyErr | valueError | overflowError
deriving DecidableEq, Repr

/-- `datetime.date(y, m, d)`: a year beyond a C int raises `OverflowError`, other bad fields `ValueError`. -/
def mkDate (y m d : Nat) : Except PyErr PDate :=
  if y > 2147483647 then .error .overflowError
  else if 1 ≤ y && y ≤ 9999 && 1 ≤ m && m ≤ 12 && 1 ≤ d && d ≤ daysInMonth y m then .ok ⟨y, m, d⟩
  else .error .valueError

/-- `datetime.time(h, m, s, us)`. -/
def mkTime (h m s us : Nat) : Except PyErr PTime :=
  if h < 24 && m < 60 && s < 60 && us < 1000000 then .ok ⟨h, m, s, us⟩ else .error .valueError

/-- `int((f"{digits:<06s}")[:6])`, _utils.py:57, 91: pad with zeros on the right, cut to six digits. -/
def microOf (frac : Option Str) : Nat :=
  match frac with
  | some d => digitsNat ((d ++ List.replicate (6 - d.length) 48).take 6)
  | none => 0

/-- Offset in minutes of a matched zone, _utils.py:59-71: only `-` is negative. -/
def zoneMinutes : Zone → Int
  | .utc => 0
  | .off s h m =>
    let o : Int := (digitsNat h * 60 + digitsNat m : Nat)
    if s = 45 then -o else o

/-- Result of `parse_rfc3339`. -/
inductive Rfc
  | datetime (v : PDateTime)
  | date (v : PDate)
  | time (v : PTime)
deriving DecidableEq, Repr

/-- the three date fields of the strict patterns: digits and the remaining text -/
def strictDate (s : Str) : Option ((Str × Str × Str) × Str) := do
  let (y, r) ← digits1 s
  let r ← lit 45 r
  let (m, r) ← reMonth r
  let r ← lit 45 r
  let (d, r) ← reDay r
  return ((y, m, d), r)

/-- the time fields of the strict patterns: hour, minute, second, fraction and the remaining text -/
def strictTime (s : Str) : Option ((Str × Str × Str × Option Str) × Str) := do
  let (h, r) ← reHour s
  let r ← lit 58 r
  let (mi, r) ← reMinute r
  let r ← lit 58 r
  let (se, r) ← reSecond r
  let (f, r) := reFrac r
  return ((h, mi, se, f), r)

/-- the separator `[Tt ]` -/
def reSep : Str → Option Str
  | c :: r => if c = 84 || c = 116 || c = 32 then some r else none
  | [] => none

/-- fields of `RFC_3339_DATETIME.match`, _utils.py:27-34 -/
def matchDateTime (s : Str) :
    Option ((Str × Str × Str) × (Str × Str × Str × Option Str) × Option Zone) := do
  let (d, r) ← strictDate s
  let r ← reSep r
  let (t, r) ← strictTime r
  let (z, r) := reZone r
  if atDollar r then some (d, t, z) else none

/-- fields of `RFC_3339_DATE.match`, _utils.py:36 -/
def matchDate (s : Str) : Option (Str × Str × Str) :=
  match strictDate s with
  | some (d, r) => if atDollar r then some d else none
  | none => none

/-- fields of `RFC_3339_TIME.match`, _utils.py:38-40 -/
def matchTime (s : Str) : Option (Str × Str × Str × Option Str) :=
  match strictTime s with
  | some (t, r) => if atDollar r then some t else none
  | none => none

/-- `parse_rfc3339`, _utils.py:45-95. -/
def parseRfc3339 (s : Str) : Except PyErr Rfc :=
  match matchDateTime s with
  | some ((y, m, d), (h, mi, se, f), z) =>
    match mkDate (digitsNat y) (digitsNat m) (digitsNat d) with
    | .error e => .error e
    | .ok dt =>
      match mkTime (digitsNat h) (digitsNat mi) (digitsNat se) (microOf f) with
      | .error e => .error e
      | .ok t => .ok (.datetime ⟨dt, t, z.map zoneMinutes⟩)
  | none =>
    match matchDate s with
    | some (y, m, d) =>
      match mkDate (digitsNat y) (digitsNat m) (digitsNat d) with
      | .error e => .error e
      | .ok dt => .ok (.date dt)
    | none =>
      match matchTime s with
      | some (h, mi, se, f) =>
        match mkTime (digitsNat h) (digitsNat mi) (digitsNat se) (microOf f) with
        | .error e => .error e
        | .ok t => .ok (.time t)
      | none => .error .valueError

/-! ## _parse_number, parser.py:670-719 -/

/-- `re.sub("(?i)(?<=D)_(?=D)", "", raw)` for a digit class `D`: drop underscores between two digits.
`prev` is the previous character of the text. -/
def dropUnderscores (p : Chr → Bool) (prev : Option Chr) : Str → Str
  | [] => []
  | c :: r =>
    if c = 95 && (match prev with | some q => p q | none => false)
        && (match r with | q :: _ => p q | [] => false) then
      dropUnderscores p (some c) r
    else c :: dropUnderscores p (some c) r

/-- `clean.split("e", 1)[0]` -/
def beforeE (s : Str) : Str := s.takeWhile (· != 101)

/-- `s.endswith(".")` -/
def endsDot (s : Str) : Bool := s.getLast? == some 46

/-- hexadecimal digit class of parser.py:702 under `(?i)` -/
def isHexChar (c : Chr) : Bool := isDigit c || (97 ≤ c && c ≤ 102) || (65 ≤ c && c ≤ 70)

/-- digit class of the base of a literal, parser.py:692-703 -/
def numDigitClass (raw : Str) : Chr → Bool :=
  if (t!"0b").isPrefixOf raw then fun c => c == 48 || c == 49
  else if (t!"0o").isPrefixOf raw then fun c => 48 ≤ c && c ≤ 55
  else if (t!"0x").isPrefixOf raw then isHexChar
  else isDigit

/-- base of a literal, parser.py:693-703 -/
def numBase (raw : Str) : Nat :=
  if (t!"0b").isPrefixOf raw then 2 else if (t!"0o").isPrefixOf raw then 8
  else if (t!"0x").isPrefixOf raw then 16 else 10

/-- sign and rest of a literal, parser.py:672-675 -/
def numSign : Str → Str × Str
  | 43 :: r => ([43], r)
  | 45 :: r => ([45], r)
  | s => ([], s)

/-- `clean`, parser.py:706: underscores dropped, lower case. -/
def numClean (raw : Str) : Str := (dropUnderscores (numDigitClass raw) none raw).map lowerAscii

/-- the rejections before any conversion, parser.py:677-713 -/
def numRejected (sign raw : Str) : Bool :=
  let clean := numClean raw
  (raw.length > 1 &&
    (((t!"0").isPrefixOf raw && !((t!"0.").isPrefixOf raw || (t!"0o").isPrefixOf raw || (t!"0x").isPrefixOf raw
        || (t!"0b").isPrefixOf raw || (t!"0e").isPrefixOf raw))
      || (!sign.isEmpty && (t!".").isPrefixOf raw)))
  || (((t!"0o").isPrefixOf raw || (t!"0x").isPrefixOf raw || (t!"0b").isPrefixOf raw) && !sign.isEmpty)
  || clean.contains 95
  || endsDot clean
  || (!(t!"0x").isPrefixOf clean && endsDot (beforeE clean))

/-- `_parse_number`, parser.py:670-719. -/
def parseNumber (raw0 : Str) (t : Trivia) : Option Item :=
  let (sign, raw) := numSign raw0
  if numRejected sign raw then none
  else
    let clean := numClean raw
    match pyInt (numBase raw) (sign ++ clean) with
    | some n => some (.integer n t (sign ++ raw))
    | none => if pyFloatOk (sign ++ clean) then some (.float (sign ++ clean) t (sign ++ raw)) else none

end Tomlkit
