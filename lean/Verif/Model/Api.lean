import Verif.Model.Parser
/-!
# api.py and the constructors of items.py: strings, keys, numbers, dates, single values
-/
namespace Tomlkit

/-! ## Strings -/

/-- `String.from_raw`, items.py:1821-1832. -/
def fromRaw (value : Str) (ty : StrType) (escape : Bool) : Except Err Item :=
  if ty.invalidSequences.any fun q => isInfix q value then .error .invalidString
  else
    let escaped := ty.escapedSequences
    let o := if escape && !escaped.isEmpty then escapeString value escaped else value
    .ok (.str ty value o {})

/-- `tomlkit.string(raw, literal=, multiline=, escape=)`, api.py:112-134. -/
def apiString (raw : Str) (literal multiline escape : Bool) : Except Err Item :=
  fromRaw raw (StrType.select literal multiline) escape

/-- `item(s)` for a `str`, items.py:187-188: `String.from_raw(s)`. A default string has no invalid sequences, so
this never raises. -/
def stringItem (s : Str) : Item := .str .slb s (escapeString s StrType.slb.escapedSequences) {}

/-- `String.__add__` with another string item, items.py:1807-1812: texts and values are concatenated. -/
def strAddItem (ty : StrType) (v o : Str) (t : Trivia) (v' o' : Str) : Item := .str ty (v ++ v') (o ++ o') t

/-- `String.__add__` with a plain `str`: the text of a plain `str` is the `str` itself, items.py:1811. -/
def strAddPlain (ty : StrType) (v o : Str) (t : Trivia) (s : Str) : Item := .str ty (v ++ s) (o ++ s) t

/-! ## Keys -/

/-- characters of a bare key in `SingleKey.__init__`, items.py:400-402 -/
def needsQuotes (k : Str) : Bool := k.isEmpty || k.any fun c => !isBareChar c

/-- `SingleKey(k)`, items.py:392-424. -/
def mkKey (k : Str) : SKey :=
  if needsQuotes k then
    { key := k, t := .basic, sep := t!" = ", orig := 34 :: (escapeString k basicEscapes ++ [34]) }
  else { key := k, t := .bare, sep := t!" = ", orig := k }

/-- `tomlkit.key(k)` for a `str`, api.py:243-244. -/
def apiKey (k : Str) : Key := .single (mkKey k)

/-- `tomlkit.key([k1, ...])` for strings, api.py:245: `DottedKey([key(k) ...])`, items.py:441-454. -/
def apiDottedKey (ks : List Str) : Key :=
  .dotted (ks.map mkKey) (t!" = ") (joinDot (ks.map fun k => (mkKey k).orig))

/-! ## Integers -/

/-- decimal digits of a natural number, most significant first, with at least as much fuel as digits -/
def natDigits : Nat → Nat → Str
  | 0, _ => []
  | f + 1, n => if n < 10 then [48 + n] else natDigits f (n / 10) ++ [48 + n % 10]

/-- `str(n)` for a natural number -/
def natText (n : Nat) : Str := natDigits (n + 1) n

/-- `str(n)` for an `int`. -/
def intText (n : Int) : Str := if n < 0 then 45 :: natText n.natAbs else natText n.natAbs

/-- `item(n)` for an `int`, items.py:139-140. -/
def intItem (n : Int) : Item := .integer n {} (intText n)

/-- `Integer._sign`, items.py:609-610: the text is a sign followed by digits (a final newline is let through by
`$`). -/
def intSigned (raw : Str) : Bool :=
  match raw with
  | c :: r =>
    (c = 43 || c = 45) &&
      (let d := if r.getLast? = some 10 then r.dropLast else r
       !d.isEmpty && d.all isReDigit)
  | [] => false

/-- `Integer._new(result)`, items.py:630-636, for an item with text `raw`. -/
def intNew (raw : Str) (t : Trivia) (result : Int) : Item :=
  let txt := intText result
  .integer result t (if intSigned raw then (if result ≥ 0 then 43 :: txt else 45 :: txt) else txt)

/-! ## Dates and times -/

/-- `n` decimal digits of a number -/
def padDigits : Nat → Nat → Str
  | 0, _ => []
  | w + 1, n => padDigits w (n / 10) ++ [48 + n % 10]

/-- `date.isoformat()` -/
def isoDate (d : PDate) : Str := padDigits 4 d.year ++ 45 :: (padDigits 2 d.month ++ 45 :: padDigits 2 d.day)

/-- `time.isoformat()` without zone: microseconds only if they are not zero -/
def isoTime (t : PTime) : Str :=
  padDigits 2 t.hour ++ 58 :: (padDigits 2 t.minute ++ 58 :: (padDigits 2 t.second ++
    (if t.micro = 0 then [] else 46 :: padDigits 6 t.micro)))

/-- the zone part of `isoformat`, for offsets of whole minutes -/
def isoZone (m : Int) : Str :=
  let a := m.natAbs
  (if m < 0 then 45 else 43) :: (padDigits 2 (a / 60) ++ 58 :: padDigits 2 (a % 60))

/-- `datetime.isoformat()` -/
def isoDateTime (d : PDateTime) : Str :=
  isoDate d.date ++ 84 :: (isoTime d.time ++ (match d.tz with | some m => isoZone m | none => []))

/-- `s.replace("+00:00", "Z")`: all occurrences, left to right -/
def replaceUtc : Str → Str
  | 43 :: 48 :: 48 :: 58 :: 48 :: 48 :: r => 90 :: replaceUtc r
  | c :: r => c :: replaceUtc r
  | [] => []

/-- `item(d)` for a `date`, items.py:202-203 -/
def dateItem (d : PDate) : Item := .date d {} (isoDate d)
/-- `item(t)` for a `time` without zone, items.py:204-213 -/
def timeItem (t : PTime) : Item := .time t {} (isoTime t)
/-- `item(d)` for a `datetime`, items.py:189-201 -/
def datetimeItem (d : PDateTime) : Item := .datetime d {} (replaceUtc (isoDateTime d))

/-- `parse_rfc3339` called from api.py: its exceptions propagate. -/
def rfcOf (raw : Str) : Except Err Rfc :=
  match parseRfc3339 raw with
  | .ok r => .ok r
  | .error .valueError => .error .valueError
  | .error .overflowError => .error .overflowError

/-- `tomlkit.date(raw)`, api.py:136-142. A `datetime` is a `date` for `isinstance`, so it is let through. -/
def apiDate (raw : Str) : Except Err Item :=
  match rfcOf raw with
  | .ok (.date d) => .ok (dateItem d)
  | .ok (.datetime d) => .ok (datetimeItem d)
  | .ok (.time _) => .error .valueError
  | .error e => .error e

/-- `tomlkit.time(raw)`, api.py:145-151. -/
def apiTime (raw : Str) : Except Err Item :=
  match rfcOf raw with
  | .ok (.time t) => .ok (timeItem t)
  | .ok _ => .error .valueError
  | .error e => .error e

/-- `tomlkit.datetime(raw)`, api.py:154-160. -/
def apiDatetime (raw : Str) : Except Err Item :=
  match rfcOf raw with
  | .ok (.datetime d) => .ok (datetimeItem d)
  | .ok _ => .error .valueError
  | .error e => .error e

/-! ## value() -/

/-- `tomlkit.value(raw)`, api.py:248-264. -/
def apiValue (raw : Str) : Except Err Item :=
  match parseValue (valueFuel raw) (.init raw) with
  | .ok v st => if st.atEnd then .ok v else .error (.parse .unexpectedChar st.rest.length)
  | .err e _ => .error e

/-- `tomlkit.key_value(src)`, api.py:267-275. -/
def apiKeyValue (src : Str) : Except Err (Key × Item) :=
  match parseKeyValue (valueFuel src) false (.init src) with
  | .ok v _ => .ok v
  | .err e _ => .error e

/-- `tomlkit.comment(string)`, api.py:288-290. -/
def apiComment (s : Str) : Item := .comment { commentWs := t!"  ", comment := t!"# " ++ s }

/-- `tomlkit.ws(src)`, api.py:278-280, and `tomlkit.nl()`, api.py:283-285 (`src = "\n"`). -/
def apiWs (s : Str) : Item := .ws s true

/-- The text that `Item.comment(text)` stores, items.py:496-497: `# ` is put in front unless the text, stripped, starts with
`#`. (`strip` works on both ends; the end has no influence on `startswith`, unless the text is blank.) -/
def storedComment (s : Str) : Str := if (strip s).head? = some 35 then s else t!"# " ++ s

/-- `Item.comment(text)`, items.py:494-502. Not for white space, which has no trivia. -/
def Item.withComment (i : Item) (s : Str) : Item :=
  i.setTrivia { i.trivia with commentWs := [32], comment := storedComment s }

end Tomlkit
