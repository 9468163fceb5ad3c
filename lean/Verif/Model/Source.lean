import Verif.Model.Parser
/-!
# The character source (source.py) and the look-aheads of the parser, as the code writes them

`Model/Parser.lean` works on an abstraction of this: the text from the index on and the text between marker and index.
Here the object is modelled field by field; `Props/Source.lean` proves that the abstraction is faithful.
-/
namespace Tomlkit

/-- The mutable fields of `Source`, source.py:66-80: what the iterator `_chars` will still yield, `_idx`, `_current`
(`none` is the object `EOF`, which differs from a NUL character of the text, source.py:152) and `_marker`. -/
structure Cur where
  chars : List (Nat × Chr)
  idx : Nat
  current : Option Chr
  marker : Nat

/-- Result of a method: a value or an exception, with the state it leaves. -/
inductive SRes (α : Type) where
  | ok (a : α) (s : Cur)
  | err (e : Err) (s : Cur)

/-- the state that a method leaves -/
def SRes.state {α : Type} : SRes α → Cur
  | .ok _ s => s
  | .err _ s => s

/-- A method of `Source`: the text itself (`Source` is a `str`) never changes. -/
def S (α : Type) := Str → Cur → SRes α

/-- sequencing -/
def S.bind {α β : Type} (m : S α) (f : α → S β) : S β := fun text s =>
  match m text s with
  | .ok a s' => f a text s'
  | .err e s' => .err e s'

instance : Monad S where
  pure a := fun _ s => .ok a s
  bind := S.bind

/-- `[(i, c) for i, c in enumerate(text)]` from position `i` on -/
def enumFrom (i : Nat) : Str → List (Nat × Chr)
  | [] => []
  | c :: r => (i, c) :: enumFrom (i + 1) r

/-- the fields before the first `inc`, source.py:66-76 (`_current` is an empty string there; it is overwritten) -/
def Cur.fresh (text : Str) : Cur := ⟨enumFrom 0 text, 0, none, 0⟩

/-- the state part of `inc`, source.py:115-120 -/
def Cur.next (text : Str) (s : Cur) : Cur :=
  match s.chars with
  | (i, c) :: r => { s with chars := r, idx := i, current := some c }
  | [] => { s with idx := text.length, current := none }

/-- `inc()`, source.py:109-125 -/
def S.inc : S Bool := fun text s => .ok (!s.chars.isEmpty) (s.next text)

/-- `inc(exception=UnexpectedEofError)`, source.py:109-125 -/
def S.incE : S Bool := fun text s =>
  match s.chars with
  | _ :: _ => .ok true (s.next text)
  | [] => .err (.parse .unexpectedEof 0) (s.next text)

/-- `inc_n(n)`, source.py:127-132: `all(...)` stops at the first failure -/
def S.incN : Nat → S Bool
  | 0 => pure true
  | n + 1 => do
    if ← S.inc then S.incN n else return false

/-- `Source(text)`, source.py:65-80 -/
def Cur.init (text : Str) : Cur := (Cur.fresh text).next text

/-- `current`, as a character: `EOF` is NUL, source.py:63 -/
def Cur.char (s : Cur) : Chr := s.current.getD 0
/-- `end()`, source.py:148-152 -/
def Cur.atEnd (s : Cur) : Bool := s.current.isNone
/-- `mark()`, source.py:154-158 -/
def S.mark : S Unit := fun _ s => .ok () { s with marker := s.idx }
/-- `extract()`, source.py:103-107: `self[self._marker : self._idx]` -/
def S.extract : S Str := fun text s => .ok ((text.take s.idx).drop s.marker) s
/-- read the fields -/
def S.get : S Cur := fun _ s => .ok s s
/-- `raise self.parse_error(...)`, source.py:160-170 -/
def S.fail {α : Type} (k : PKind) : S α := fun text s => .err (.parse k (text.length - s.idx)) s

/-- The loop of `consume`, source.py:137-141; a negative `max` never gets to zero. The counter is the number of
characters that the iterator still holds, plus one. -/
def S.consumeLoop (p : Chr → Bool) : Nat → (min max : Int) → S (Int × Int)
  | 0, mn, mx => pure (mn, mx)
  | n + 1, mn, mx => do
    let s ← S.get
    if p s.char && mx != 0 then
      if ← S.inc then S.consumeLoop p n (mn - 1) (mx - 1) else return (mn - 1, mx - 1)
    else return (mn, mx)

/-- `consume(chars, min, max)`, source.py:133-146 -/
def S.consume (p : Chr → Bool) (min max : Int) : S Unit := do
  let s ← S.get
  let (mn, _) ← S.consumeLoop p (s.chars.length + 1) min max
  if mn > 0 then S.fail .unexpectedChar else return

/-- what `_State.__exit__` puts back, source.py:33-38; `old` was saved by `__enter__` (source.py:22-29). The iterator
is a copy, so the body does not advance the saved one. -/
def Cur.back (saveMarker : Bool) (old s : Cur) : Cur :=
  { s with chars := old.chars, idx := old.idx, current := old.current, marker := if saveMarker then old.marker else s.marker }

/-- `with self._state(save_marker=…, restore=…): body`, source.py:11-38. -/
def S.withState {α : Type} (saveMarker restore : Bool) (body : S α) : S α := fun text old =>
  match body text old with
  | .ok a s => .ok a (if restore then Cur.back saveMarker old s else s)
  | .err e s => .err e (Cur.back saveMarker old s)

/-- `with self._state as state: body`, source.py:41-62, where the body decides `state.restore`. -/
def S.withHandler {α : Type} (body : S (α × Bool)) : S α := fun text old =>
  match body text old with
  | .ok (a, restore) s => .ok a (if restore then Cur.back false old s else s)
  | .err e s => .err e (Cur.back false old s)

/-! ## The look-aheads -/

/-- The loop of `_peek`, parser.py:1097-1104. -/
def S.peekLoop : Nat → (buf : Str) → S Str
  | 0, buf => pure buf
  | n + 1, buf => do
    let s ← S.get
    if !(isValueEnd s.char || s.char == 0) then do
      let _ ← S.inc
      S.peekLoop n (buf ++ [s.char])
    else return buf

/-- `_peek(n)`, parser.py:1088-1104. -/
def S.peek (n : Nat) : S Str := S.withState false true (S.peekLoop n [])

/-- the code point of the extracted digits, parser.py:1128-1141 -/
def unicodeOf (ex : Str) : Option Chr :=
  let surrogate := match ex with
    | a :: b :: _ => (a = 100 || a = 68) && !(48 ≤ b && b ≤ 55)
    | _ => false
  if surrogate then none
  else match pyInt 16 ex with
    | some v => if 0 ≤ v && v ≤ 0x10ffff then some v.toNat else none
    | none => none

/-- `_peek_unicode(is_long)`, parser.py:1106-1143: the value and, with it, the digits. -/
def S.peekUnicode (isLong : Bool) : S (Option Chr) := S.withState true true do
  let s ← S.get
  if s.char ≠ 117 && s.char ≠ 85 then S.fail .internal
  else
    let _ ← S.inc
    S.mark
    if ← S.incN (if isLong then 8 else 4) then do
      let ex ← S.extract
      return unicodeOf ex
    else return none

/-- the look-ahead for CR LF after an opening `"""`, parser.py:806-811 -/
def S.peekCrLf : S Bool := do
  let s ← S.get
  let cur ← S.withState false true do
    if ← S.inc then
      let s' ← S.get
      return [s.char, s'.char]
    else return [s.char]
  return cur == [13, 10]

/-- `_parse_bool`, parser.py:548-557 -/
def S.boolLoop : Str → S Unit
  | [] => pure ()
  | c :: r => do
    S.consume (· == c) 1 1
    S.boolLoop r

@[inherit_doc S.boolLoop]
def S.parseBool (word : Str) (v : Bool) : S Item := S.withState false false do
  S.boolLoop word
  return .bool v {}

end Tomlkit
