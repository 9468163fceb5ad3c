import Verif.Model.Container
/-!
# parser.py and source.py

The source is represented by the remaining text and the text between the marker and the current position.
`loss` is a ghost log: the parser writes to it where the code drops or moves text, and never reads it.
-/
namespace Tomlkit

/-- Places where the code gives text up (ghost). -/
inductive Loss
  /-- `_parse_array` swallows an `UnexpectedCharError` raised after consuming text, then sees `]` (parser.py:590-595) -/
  | swallowed
  /-- white space after a date is dropped (parser.py:496, 333-335) -/
  | dateWs
  /-- white space before a comma of an inline table moves behind it (parser.py:655-660) -/
  | inlineWs
  /-- the second closing bracket of `[[name]]` is not checked (parser.py:940-942) -/
  | aotClose
  /-- a table is merged into an earlier entry, possibly under another spelling of its name, or re-indented -/
  | reordered
  /-- a header comment that ends with a lone carriage return gets a newline when it is written, container.py:524-529 -/
  | headerCr
  /-- the header of an array of tables is written with the spelling of the enclosing headers or of the first
  element, container.py:552-577 -/
  | respelled
deriving DecidableEq, Repr

/-- State of the parser. `rest` is the text from `_idx`, `ext` the text from `_marker` to `_idx`
(source.py:74-80), `aot` is `_aot_stack` (parser.py:67), last element on top. -/
structure St where
  rest : Str
  ext : Str
  aot : List Key
  loss : List Loss

/-- Result of a parser step. A failure carries the state, since `_parse_array` goes on after one. -/
inductive Res (α : Type) where
  | ok (a : α) (st : St)
  | err (e : Err) (st : St)

/-- A parser step. -/
def P (α : Type) := St → Res α

/-- sequencing -/
def P.bind {α β : Type} (m : P α) (f : α → P β) : P β := fun st =>
  match m st with
  | .ok a st' => f a st'
  | .err e st' => .err e st'

instance : Monad P where
  pure a := fun st => .ok a st
  bind := P.bind

/-- read the state -/
def getSt : P St := fun st => .ok st st
/-- `self._current`: NUL at the end (source.py:64, 120-123) -/
def St.cur (st : St) : Chr := match st.rest with | [] => 0 | c :: _ => c
/-- `self.end()`, source.py:148-152 -/
def St.atEnd (st : St) : Bool := st.rest.isEmpty
/-- `self.mark()`, source.py:154-158 -/
def mark : P Unit := fun st => .ok () { st with ext := [] }
/-- `self.extract()`, source.py:103-107 -/
def extract : P Str := fun st => .ok st.ext st
/-- `self.inc()`, source.py:109-125, without looking at the result -/
def step : P Unit := fun st =>
  match st.rest with
  | [] => .ok () st
  | c :: r => .ok () { st with rest := r, ext := st.ext ++ [c] }
/-- `while p(self._current) and self.inc(): pass`; also `consume` without bounds (source.py:133-146) -/
def skip (p : Chr → Bool) : P Unit := fun st =>
  .ok () { st with rest := st.rest.dropWhile p, ext := st.ext ++ st.rest.takeWhile p }
/-- `raise self.parse_error(...)`, source.py:160-170 -/
def fail {α : Type} (k : PKind) : P α := fun st => .err (.parse k st.rest.length) st
/-- any other exception -/
def raise {α : Type} (e : Err) : P α := fun st => .err e st
/-- `self.inc(exception=UnexpectedEofError)`, source.py:109-125 -/
def stepE : P Unit := fun st =>
  match st.rest with
  | [] => .err (.parse .unexpectedEof 0) st
  | [c] => .err (.parse .unexpectedEof 0) { st with rest := [], ext := st.ext ++ [c] }
  | c :: r => .ok () { st with rest := r, ext := st.ext ++ [c] }
/-- write to the ghost log -/
def note (b : Bool) (l : Loss) : P Unit := fun st => .ok () (if b then { st with loss := st.loss ++ [l] } else st)
/-- `with self._state:` around a step: after an exception the position is restored (source.py:31-38). The marker
is not; no text is extracted before the next `mark` on that path, so the model keeps the old one. -/
def restoring {α : Type} (m : P α) : P α := fun st =>
  match m st with
  | .ok a st' => .ok a st'
  | .err e st' => .err e { st' with rest := st.rest, ext := st.ext }
/-- `with self._state(save_marker=True, restore=True)`: look ahead, always restore (source.py:31-38) -/
def peeking {α : Type} (m : P α) : P α := fun st =>
  match m st with
  | .ok a _ => .ok a st
  | .err e _ => .err e st
/-- run a container operation; its exceptions propagate -/
def lift {α : Type} (x : Except Err α) : P α := fun st =>
  match x with
  | .ok a => .ok a st
  | .error e => .err e st

/-! ## Comments -/

/-- comment characters: no newline, no control character except tab, parser.py:263-269 -/
def isCommentChar (c : Chr) : Bool := !isNl c && !(isCtrl c && c != 9)

/-- the trail, parser.py:287-297. The condition of line 296 makes no difference: without it the text is empty. -/
def parseTrail : P Str := do
  skip isSpaces
  let st ← getSt
  if st.cur = 13 then step
  let st ← getSt
  if st.cur = 10 then step
  extract

/-- `_parse_comment_trail`, parser.py:240-299. -/
def parseCommentTrail (trail : Bool) : P (Str × Str × Str) := do
  let st ← getSt
  if st.atEnd then return ([], [], [])
  mark
  skip isSpTabCr
  let st ← getSt
  if st.atEnd || st.cur = 10 then
    let tr ← if trail then parseTrail else pure []
    return ([], [], tr)
  else if st.cur = 35 then
    let cws ← extract
    mark
    step
    skip isCommentChar
    let st ← getSt
    if !st.atEnd && !isNl st.cur then fail .invalidControlChar
    else
      let comment ← extract
      mark
      let tr ← if trail then parseTrail else pure []
      return (cws, comment, tr)
  else fail .unexpectedChar

/-! ## Strings -/

/-- `_escaped`, _utils.py:99-107 -/
def escapedChar (c : Chr) : Option Chr :=
  if c = 98 then some 8
  else if c = 116 then some 9
  else if c = 110 then some 10
  else if c = 102 then some 12
  else if c = 114 then some 13
  else if c = 34 then some 34
  else if c = 92 then some 92
  else none

/-- `_peek_unicode`, parser.py:1106-1141, on the text after the `u`: the code point. There must be one more
character after the digits. -/
def peekUnicode (n : Nat) (s : Str) : Option Chr :=
  let ex := s.take n
  if s.length ≤ n then none
  else
    let surrogate := match ex with
      | a :: b :: _ => (a = 100 || a = 68) && !(48 ≤ b && b ≤ 55)
      | _ => false
    if surrogate then none
    else match pyInt 16 ex with
      | some v => if 0 ≤ v && v ≤ 0x10ffff then some v.toNat else none
      | none => none

/-- consume `n` characters -/
def stepN (n : Nat) : P Unit := fun st =>
  .ok () { st with rest := st.rest.drop n, ext := st.ext ++ st.rest.take n }

/-- `_parse_escaped_char`, parser.py:729-772. -/
def parseEscapedChar (multiline : Bool) : P Str := do
  let st ← getSt
  if multiline && isWs st.cur then
    skip isWs
    let st' ← getSt
    if st'.atEnd then fail .unexpectedEof
    else if !hasNl (st.rest.takeWhile isWs) then fail .invalidCharInString
    else return []
  else match escapedChar st.cur with
    | some c => do
      stepE
      return [c]
    | none =>
      if st.cur = 117 || st.cur = 85 then
        let n := if st.cur = 85 then 8 else 4
        match peekUnicode n (st.rest.drop 1) with
        | some u => do
          stepN (n + 1)
          return [u]
        | none => fail .invalidUnicode
      else fail .invalidCharInString

/-- is the character refused in a string? parser.py:821-834 -/
def refusedInString (delim : StrType) (c : Chr) : Bool :=
  isCtrl c && (c != 9) && (!delim.isMultiline || (c != 10 && c != 13))

/-- The loop of `_parse_string`, parser.py:819-885. -/
def strLoop (delim : StrType) : Nat → (value : Str) → (escaped : Bool) → P Item
  | 0, _, _ => raise .fuel
  | n + 1, value, escaped => do
    let st ← getSt
    if !escaped && refusedInString delim st.cur then fail .invalidControlChar
    else if !escaped && st.cur = delim.unit then
      if delim.isMultiline then
        let original ← extract
        let close := st.rest.takeWhile (· == delim.unit)
        skip (· == delim.unit)
        if close.length < 3 then strLoop delim n (value ++ close) escaped
        else if close.length = 3 then return .str delim value original {}
        else if close.length ≥ 6 then fail .invalidCharInString
        else
          let extra := close.take (close.length - 3)
          return .str delim (value ++ extra) (original ++ extra) {}
      else
        let original ← extract
        step
        return .str delim value original {}
    else if delim.isBasic && escaped then
      let c ← parseEscapedChar delim.isMultiline
      strLoop delim n (value ++ c) false
    else if delim.isBasic && st.cur = 92 then
      stepE
      strLoop delim n value true
    else
      stepE
      strLoop delim n (value ++ [st.cur]) escaped

/-- skip the newline after an opening `"""` or `'''`, parser.py:805-816 -/
def skipFirstNl (delim : StrType) : P Unit := do
  if delim.isMultiline then
    let st ← getSt
    if st.cur = 10 then stepE
    else if st.cur = 13 && (st.rest.drop 1).head? = some 10 then
      stepN 2
      let st ← getSt
      if st.atEnd then fail .unexpectedEof else pure ()
    else pure ()
  else pure ()

/-- the rest of `_parse_string` after the opening delimiter, parser.py:801-885 -/
def strBody (delim : StrType) : P Item := do
  mark
  skipFirstNl delim
  let st ← getSt
  strLoop delim (st.rest.length + 1) [] false

/-- `_parse_string`, parser.py:774-885. -/
def parseString (delim : StrType) : P Item := do
  let st ← getSt
  if st.cur ≠ delim.unit then fail .internal
  else
    stepE
    let st ← getSt
    if st.cur = delim.unit then
      step
      let st ← getSt
      if st.cur ≠ delim.unit then return .str delim [] [] {}
      else
        stepE
        strBody delim.toggle
    else strBody delim

/-! ## Keys -/

/-- `_parse_key`, `_parse_quoted_key`, `_parse_bare_key`, parser.py:348-416. -/
def parseKey : Nat → P Key
  | 0 => raise .fuel
  | n + 1 => do
    mark
    skip isSpaces
    let st ← getSt
    if st.cur = 34 || st.cur = 39 then
      let lead ← extract
      let kt := if st.cur = 34 then KeyType.basic else KeyType.literal
      match ← parseString (if st.cur = 34 then .slb else .sll) with
      | .str ty v o _ =>
        if ty.isMultiline then fail .unexpectedChar
        else
          mark
          skip isSpaces
          let tail ← extract
          let key : SKey := { key := v, t := kt, sep := [], orig := lead ++ (ty.value ++ o ++ ty.value) ++ tail }
          let st ← getSt
          if st.cur = 46 then
            step
            let k ← parseKey n
            return (Key.single key).concat k
          else return .single key
      | _ => raise .typeError
    else
      skip fun c => isBareChar c || isSpaces c
      let original ← extract
      let key := strip original
      if key.isEmpty then fail .emptyKey
      else if key.contains 32 then fail .generic
      else
        let key : SKey := { key := key, t := .bare, sep := [], orig := original }
        let st ← getSt
        if st.cur = 46 then
          step
          let k ← parseKey n
          return (Key.single key).concat k
        else return .single key

/-- a key at the current position, with enough fuel -/
def parseKeyHere : P Key := do
  let st ← getSt
  parseKey (st.rest.length + 1)

/-! ## Values -/

/-- `_peek(4) in {"+inf", "-inf", "inf", "+nan", "-nan", "nan"}` and the sign test, parser.py:439-446, 1088-1104. -/
def startsSpecialNumber (s : Str) : Bool :=
  (match s with | c :: _ => c = 43 || c = 45 | [] => false) ||
  (let p := (s.take 4).takeWhile fun c => !isValueEnd c && c != 0
   p = t!"+inf" || p = t!"-inf" || p = t!"inf" || p = t!"+nan" || p = t!"-nan" || p = t!"nan")

/-- `_parse_bool`, parser.py:548-557, with `Source.consume`, source.py:133-146. -/
def parseBool (word : Str) (v : Bool) : P Item := fun st =>
  if word.isPrefixOf st.rest then
    .ok (.bool v {}) { st with rest := st.rest.drop word.length, ext := st.ext ++ word }
  else
    let common := ((word.zip st.rest).takeWhile fun p => p.1 == p.2).length
    .err (.parse .unexpectedChar (st.rest.length - common)) st

/-- what a `ValueError` and an `OverflowError` of the `datetime` constructors become, parser.py:484, 513, 530 -/
def dateErr {α : Type} (k : PKind) : PyErr → P α
  | .valueError => fail k
  | .overflowError => raise .overflowError

/-- Integer, float, date or time starting with a digit, parser.py:456-534. -/
def parseDigits : P Item := do
  skip fun c => !isValueEnd c
  let raw ← extract
  let number : P Item := match parseNumber raw {} with
    | some i => pure i
    | none => fail .invalidNumber
  match matchLoose raw with
  | some (true, true) =>
    match parseRfc3339 raw with
    | .ok (.datetime d) => return .datetime d {} raw
    | .ok _ => raise .assertion
    | .error e => dateErr .invalidDateTime e
  | some (true, false) =>
    match parseRfc3339 raw with
    | .ok (.time _) => raise .assertion
    | .ok r =>
      mark
      skip fun c => !isDateEnd c
      let timeRaw ← extract
      let timePart := rstrip timeRaw
      let cws := timeRaw.drop timePart.length
      if timePart.isEmpty then
        match r with
        | .date d => return .date d { commentWs := cws } raw
        | .datetime d => return .date d.date { commentWs := cws } raw
        | .time _ => raise .assertion
      else
        match parseRfc3339 (raw ++ timePart) with
        | .ok (.datetime d) => return .datetime d { commentWs := cws } (raw ++ timePart)
        | .ok _ => raise .assertion
        | .error e => dateErr .invalidDate e
    | .error e => dateErr .invalidDate e
  | some (false, true) =>
    match parseRfc3339 raw with
    | .ok (.time t) => return .time t {} raw
    | .ok _ => raise .assertion
    | .error e => dateErr .invalidTime e
  | _ => number

/-- separator between key and value, parser.py:313-321: exactly one `=`, spaces and tabs -/
def parseSep : P Str := do
  mark
  let st ← getSt
  let seps := st.rest.takeWhile isKvSep
  let upTo := seps.takeWhile (· != 61)
  let after := seps.drop (upTo.length + 1)
  if !seps.contains 61 then
    stepN seps.length
    fail .unexpectedChar
  else if after.contains 61 then
    stepN (upTo.length + 1 + (after.takeWhile (· != 61)).length)
    fail .unexpectedChar
  else
    stepN seps.length
    extract

/-- `Container.add(Whitespace(raw))` for non-empty text, parser.py:627-628, 653-654 -/
def addWs (c : Cont) (raw : Str) : P Cont :=
  if raw.isEmpty then pure c
  else do
    let r ← lift (Cont.append true c none (.ws raw false))
    return r.1

/-- Does the error leave an array loop running? parser.py:590-595: only `UnexpectedCharError` is caught. -/
def Err.isUnexpectedChar : Err → Bool
  | .parse .unexpectedChar _ => true
  | _ => false

mutual
/-- `_parse_value`, parser.py:418-540. -/
def parseValue : Nat → P Item
  | 0 => raise .fuel
  | n + 1 => do
    mark
    let st ← getSt
    if st.cur = 34 then restoring (parseString .slb)
    else if st.cur = 39 then restoring (parseString .sll)
    else if st.cur = 116 then parseBool (t!"true") true
    else if st.cur = 102 then parseBool (t!"false") false
    else if st.cur = 91 then
      stepE
      let elems ← arrayLoop n false []
      return .array (groupValues elems) {} false
    else if st.cur = 123 then
      stepE
      let c ← inlineParse n none (.empty true)
      return .inline c {} false
    else if startsSpecialNumber st.rest then
      skip fun c => !isValueEnd c
      let raw ← extract
      match parseNumber raw {} with
      | some i => return i
      | none => fail .invalidNumber
    else if isDigit st.cur then parseDigits
    else fail .unexpectedChar

/-- The loop of `_parse_array`, parser.py:565-610; `prev` is `prev_value`, `elems` the elements so far. -/
def arrayLoop : Nat → (prev : Bool) → (elems : List Item) → P (List Item)
  | 0, _, _ => raise .fuel
  | n + 1, prev, elems => do
    let st ← getSt
    let indent := st.rest.takeWhile isWs
    skip isWs
    let st ← getSt
    if indent.any isNl then arrayLoop n prev (elems ++ [.ws indent false])
    else if st.cur = 35 then
      let (cws, comment, trail) ← parseCommentTrail false
      arrayLoop n prev (elems ++ [.comment ⟨indent, cws, comment, trail⟩])
    else if !indent.isEmpty then arrayLoop n prev (elems ++ [.ws indent false])
    else if prev then
      if st.cur = 44 then
        stepE
        arrayLoop n false (elems ++ [.ws [44] false])
      else if st.cur = 93 then
        step
        return elems
      else fail .unexpectedChar
    else
      -- `try: elems.append(self._parse_value()) ... except UnexpectedCharError: pass`
      fun st0 =>
        match parseValue n st0 with
        | .ok v st1 => (do
            note (!v.trivia.commentWs.isEmpty) .dateWs
            arrayLoop n true (elems ++ [v])) st1
        | .err e st1 =>
          if e.isUnexpectedChar then
            if st1.cur = 93 then (do
              note (st1.rest.length != st0.rest.length) .swallowed
              step
              return elems) st1
            else fail .unexpectedChar st1
          else .err e st1

/-- The loop of `_parse_inline_table`, parser.py:621-668; `tc` is `trailing_comma`. -/
def inlineParse : Nat → (tc : Option Bool) → Cont → P Cont
  | 0, _, _ => raise .fuel
  | n + 1, tc, c => do
    let st ← getSt
    let raw := st.rest.takeWhile isSpaces
    skip isSpaces
    let c ← addWs c raw
    let st ← getSt
    if tc != some true && st.cur = 125 then
      step
      return c
    else if tc = some false || (tc = none && st.cur = 44) then fail .unexpectedChar
    else if tc = some true && (st.cur = 125 || st.cur = 44) then fail .unexpectedChar
    else
      let (key, val) ← parseKeyValue n false
      let r ← lift (Cont.append true c (some key) val)
      note r.2 .reordered
      let st ← getSt
      let raw := st.rest.takeWhile isSpaces
      skip isSpaces
      let c ← addWs r.1 raw
      let st ← getSt
      note (!val.trivia.commentWs.isEmpty) .dateWs
      if st.cur = 44 then
        note (!raw.isEmpty) .inlineWs
        stepE
        inlineParse n (some true) c
      else inlineParse n (some false) c

/-- `_parse_key_value`, parser.py:301-346. -/
def parseKeyValue : Nat → (parseComment : Bool) → P (Key × Item)
  | 0, _ => raise .fuel
  | n + 1, parseComment => do
    mark
    skip isSpaces
    let indent ← extract
    let key ← parseKeyHere
    let sep ← parseSep
    let key := key.setSep (key.sep ++ sep)
    let val ← parseValue n
    let t := val.trivia
    if parseComment then
      let (cws, comment, trail) ← parseCommentTrail true
      note (!t.commentWs.isEmpty && !cws.isEmpty) .dateWs
      return (key, val.setTrivia
        ⟨indent, if t.commentWs.isEmpty then cws else t.commentWs, comment, trail⟩)
    else return (key, val.setTrivia { t with indent := indent, trail := [] })
end

/-! ## Items and tables -/

/-- fuel for one value -/
def valueFuel (s : Str) : Nat := 3 * s.length + 10

/-- `_parse_item`, parser.py:204-238. -/
def parseItem : P (Option (Option Key × Item)) := do
  mark
  let st0 ← getSt
  skip isSpTabCr
  let st ← getSt
  if st.cur = 10 then
    step
    let s ← extract
    return some (none, .ws s false)
  else if st.atEnd && !st.ext.isEmpty then
    return some (none, .ws st.ext false)
  else if st.cur = 35 then
    let indent ← extract
    let (cws, comment, trail) ← parseCommentTrail true
    return some (none, .comment ⟨indent, cws, comment, trail⟩)
  else if st.cur = 91 then return none
  else
    -- `state.restore = True`: back to the beginning of the white space
    let (k, v) ← (fun (_ : St) => parseKeyValue (valueFuel st0.rest) true st0)
    return some (some k, v)

/-- `_merge_ws`, parser.py:169-189: white space after white space is merged. -/
def mergeWs (c : Cont) (v : Item) : Option Cont :=
  match c.body.getLast?, v with
  | some (.mk k (.ws s _)), .ws s' _ =>
    some (.mk (c.body.dropLast ++ [.mk k (.ws (s ++ s') false)]) c.map c.dict c.parsed c.tableKeys)
  | _, _ => none

/-- `_is_child`, parser.py:191-202. -/
def isChild (parent child : Key) : Bool :=
  let p := parent.parts.map SKey.key
  let c := child.parts.map SKey.key
  if p = c then false else p = c.take p.length

/-- `EmptyKeyError` becomes `EmptyTableNameError`, parser.py:906-909, 1064-1067 -/
def headerKey : P Key := fun st =>
  match parseKeyHere st with
  | .err (.parse .emptyKey r) st' => .err (.parse .emptyTableName r) st'
  | r => r

/-- `_peek_table`, parser.py:1042-1067. -/
def peekTable : P (Bool × Key) := peeking do
  let st ← getSt
  if st.cur ≠ 91 then fail .internal
  else
    step
    let st ← getSt
    if st.cur = 91 then
      step
      let k ← headerKey
      return (true, k)
    else
      let k ← headerKey
      return (false, k)

/-- What the header of a table says. -/
structure Header where
  indent : Str
  isAot : Bool
  key : Key
  cws : Str
  comment : Str
  trail : Str

/-- The header of `_parse_table`, parser.py:893-944. -/
def parseHeader : P Header := do
  let st ← getSt
  if st.cur ≠ 91 then fail .internal
  else
    let indent ← extract
    step
    let st ← getSt
    if st.atEnd then fail .unexpectedEof
    else
      let isAot := decide (st.cur = 91)
      if isAot then step
      let st ← getSt
      if isAot && st.atEnd then fail .unexpectedEof
      else
        let key ← headerKey
        let st ← getSt
        if st.atEnd then fail .unexpectedEof
        else if st.cur ≠ 93 then fail .unexpectedChar
        else
          let key := key.setSep []
          if key.parts.any fun p => (strip p.key).contains 32 && p.t == .bare then fail .generic
          else
            step
            let st ← getSt
            note (isAot && st.cur != 93) .aotClose
            if isAot then step
            let (cws, comment, trail) ← parseCommentTrail true
            let st ← getSt
            note (!hasNl trail && !st.atEnd) .headerCr
            return ⟨indent, isAot, key, cws, comment, trail⟩

/-- The table a header opens, parser.py:946-954 and 977-987: the one that receives the entries. -/
def Header.leaf (h : Header) (name : Str) : Tbl :=
  .mk (.empty true) ⟨h.indent, h.cws, h.comment, h.trail⟩ h.isAot (some false) (some name) (some h.key.asString)

/-- A table holding one entry, as left by `raw_append` on a fresh table, parser.py:989-993. -/
def wrapOne (k : SKey) (v : Item) (t : Trivia) (isAot : Bool) (name : Str) : Tbl :=
  .mk (.mk [.mk (some k) v] [(k.key, [0])] [k.key] true (if v.isTable then [k.key] else []))
    t isAot (some true) (some name) none

/-- The chain of implicit tables below the first one, parser.py:973-996: `parts` are the name parts after the
first, `name` the name of the table that holds them. The innermost element is `leaf`, or an array of tables
with this one element. -/
def Header.chain (h : Header) (leaf : Tbl) (t : Trivia) (isAot : Bool) (name : Str) : List SKey → Tbl
  | [] => leaf
  | [k] => wrapOne k (if h.isAot then mkAoT [leaf] (some name) true else .table leaf) t isAot name
  | k :: r => wrapOne k (.table (h.chain leaf ⟨h.indent, h.cws, h.comment, h.trail⟩ false k.key r)) t isAot name

/-- The name by which the renderer knows a table: the text of the enclosing header, then the parts below it,
container.py:498-504, 554-555. (For the ghost log only.) -/
def headerPath (parent : Option Key) (parts : List SKey) : Str :=
  match parent with
  | none => joinDot (parts.map SKey.orig)
  | some p => if parts.isEmpty then p.asString else p.asString ++ 46 :: joinDot (parts.map SKey.orig)

mutual
/-- `_parse_table`, parser.py:887-1040. The entries are added to the innermost table before the implicit
parents are built around it; the code builds the parents first, which makes no difference, because they are
fresh. -/
def parseTable : Nat → (parent : Option Key) → P (Key × Item)
  | 0, _ => raise .fuel
  | n + 1, parent => do
    let h ← parseHeader
    let parts := h.key.parts.drop ((parent.map fun k => k.parts.length).getD 0)
    note (h.isAot && h.key.asString != headerPath parent parts) .respelled
    let leafName := match parts.getLast? with | some p => p.key | none => h.key.key
    let tb ← tableLoop n h.key (h.leaf leafName)
    lift tb.cont.validateAll
    let st ← getSt
    match parts with
    | k :: p :: r =>
      let outer := h.chain tb ⟨[], h.cws, h.comment, h.trail⟩
        (h.isAot && st.aot.any fun a => Key.eqv (.single k) a) k.key (p :: r)
      return (.single k, .table outer)
    | _ =>
      let key := match parts with
        | [k] => Key.single k
        | _ => h.key
      if h.isAot && (match st.aot.getLast? with | some top => !Key.eqv h.key top | none => true) then
        let a ← parseAot n tb h.key
        return (key, a)
      else return (key, .table tb)

/-- The entries of a table, parser.py:1003-1032. -/
def tableLoop : Nat → (full : Key) → Tbl → P Tbl
  | 0, _, _ => raise .fuel
  | n + 1, full, tb => do
    let st ← getSt
    if st.atEnd then return tb
    else match ← parseItem with
      | some (k, v) =>
        match mergeWs tb.cont v with
        | some c => tableLoop n full (tb.setCont c)
        | none => do
          let r ← lift (tb.rawAppend k v)
          note r.2 .reordered
          tableLoop n full r.1
      | none => do
        let st ← getSt
        if st.cur = 91 then childLoop n full tb
        else fail .internal

/-- The child tables, parser.py:1010-1027: both the first one and its siblings. -/
def childLoop : Nat → (full : Key) → Tbl → P Tbl
  | 0, _, _ => raise .fuel
  | n + 1, full, tb => do
    let st ← getSt
    if st.atEnd then return tb
    else
      let (_, next) ← peekTable
      if isChild full next then
        let (k, v) ← parseTable n (some full)
        let r ← lift (tb.rawAppend (some k) v)
        note r.2 .reordered
        childLoop n full r.1
      else return tb

/-- `_parse_aot`, parser.py:1069-1086. -/
def parseAot : Nat → Tbl → Key → P Item
  | 0, _, _ => raise .fuel
  | n + 1, first, name => do
    fun st => .ok () { st with aot := st.aot ++ [name] }
    let ts ← aotLoop n name [first]
    fun st => .ok () { st with aot := st.aot.dropLast }
    return mkAoT ts none true

/-- The loop of `_parse_aot`, parser.py:1076-1082. -/
def aotLoop : Nat → Key → List Tbl → P (List Tbl)
  | 0, _, _ => raise .fuel
  | n + 1, name, ts => do
    let st ← getSt
    if st.atEnd then return ts
    else
      let (isAot, next) ← peekTable
      if isAot && Key.eqv next name then
        match ← parseTable n (some name) with
        | (_, .table t) => aotLoop n name (ts ++ [t])
        | _ => raise .valueError
      else return ts
end

/-! ## Documents -/

/-- `except Exception as e: raise self.parse_error(ParseError, str(e))`, parser.py:147-150, 163-166. The two
errors that are no Python exceptions pass. -/
def wrapErr {α : Type} (x : Except Err α) : P α := fun st =>
  match x with
  | .ok a => .ok a st
  | .error .fuel => .err .fuel st
  | .error .unmodelled => .err .unmodelled st
  | .error _ => .err (.parse .generic st.rest.length) st

/-- The first loop of `parse`, parser.py:133-152. -/
def topItems : Nat → Cont → P Cont
  | 0, _ => raise .fuel
  | n + 1, c => do
    let st ← getSt
    if st.atEnd || st.cur = 91 then return c
    else match ← parseItem with
      | none => return c
      | some (k, v) =>
        match (if (k.map Key.isMulti).getD false then none else mergeWs c v) with
        | some c' => do
          mark
          topItems n c'
        | none => do
          let r ← wrapErr (Cont.append true c k v)
          note r.2 .reordered
          mark
          topItems n r.1

/-- The second loop of `parse`, parser.py:154-166. -/
def topTables : Nat → Cont → P Cont
  | 0, _ => raise .fuel
  | n + 1, c => do
    let st ← getSt
    if st.atEnd then return c
    else
      let (key, v) ← parseTable n none
      let v ← match v with
        | .table tb => if tb.isAot then parseAot n tb key else pure v
        | _ => pure v
      let r ← wrapErr (Cont.append true c (some key) v)
      note r.2 .reordered
      topTables n r.1

/-- fuel for a document -/
def docFuel (s : Str) : Nat := 4 * s.length + 20

/-- The initial state: `Source.__init__`, source.py:65-78, and `Parser.__init__`, parser.py:63-67. -/
def St.init (s : Str) : St := ⟨s, [], [], []⟩

/-- `Parser.parse`, parser.py:129-167. -/
def parseDoc (s : Str) : P Cont := do
  let c ← topItems (docFuel s) (.empty true)
  let c ← topTables (docFuel s) c
  return c.stopParsing

/-- `tomlkit.parse(string)`, api.py:82-85: the document, and the ghost log of the parser. -/
def parseLog (s : Str) : Except Err (Cont × List Loss) :=
  match parseDoc s (.init s) with
  | .ok c st => .ok (c, st.loss)
  | .err e _ => .error e

/-- `tomlkit.parse(string)`, api.py:82-85. -/
def parse (s : Str) : Except Err Cont := (parseLog s).map Prod.fst

/-- `tomlkit.dumps(document)`, api.py:49-67, for a document: `Container.as_string`. -/
def dumps (c : Cont) : Str := c.asString

end Tomlkit
