import Verif.Model.Api
/-!
# toml_file.py, `Source._to_linecol`, and the registry of custom encoders
-/
namespace Tomlkit

/-! ## TOMLFile, toml_file.py -/

/-- The values of `TOMLFile._linesep`; the code uses the texts `"\n"`, `"\r\n"` and `"mixed"`. Another value of
`os.linesep` does not exist on supported systems. -/
inductive Sep | lf | crlf | mixed
deriving DecidableEq, Repr

/-- `content.count("\n")`, toml_file.py:36 -/
def countLf : Str → Nat
  | [] => 0
  | c :: r => (if c = 10 then 1 else 0) + countLf r

/-- `content.count("\r\n")`, toml_file.py:38: non-overlapping occurrences -/
def countCrLf : Str → Nat
  | 13 :: 10 :: r => 1 + countCrLf r
  | _ :: r => countCrLf r
  | [] => 0

/-- `TOMLFile.read` up to the parser, toml_file.py:30-44: the new `_linesep`. -/
def detectSep (old : Sep) (content : Str) : Sep :=
  if countLf content > 0 then
    if countCrLf content = countLf content then .crlf
    else if countCrLf content = 0 then .lf
    else .mixed
  else old

/-- `content.replace("\r\n", "\n")`, toml_file.py:54 -/
def crlfToLf : Str → Str
  | 13 :: 10 :: r => 10 :: crlfToLf r
  | c :: r => c :: crlfToLf r
  | [] => []

/-- `re.sub(r"(?<!\r)\n", "\r\n", content)`, toml_file.py:56. `prevCr`: the character before is `\r`. -/
def lfToCrlf (prevCr : Bool) : Str → Str
  | [] => []
  | c :: r => (if c = 10 ∧ prevCr = false then [13, 10] else [c]) ++ lfToCrlf (decide (c = 13)) r

/-- the text that `TOMLFile.write` stores, toml_file.py:48-59, for a document with the given rendering -/
def writeText (sep : Sep) (content : Str) : Str :=
  match sep with
  | .lf => crlfToLf content
  | .crlf => lfToCrlf false content
  | .mixed => content

/-- `TOMLFile.read`, toml_file.py:30-46: the document and the separator that is remembered. -/
def fileRead (old : Sep) (content : Str) : Except Err (Cont × Sep) :=
  (parse content).map fun d => (d, detectSep old content)

/-- `TOMLFile.write(doc)`, toml_file.py:48-59: the content of the file afterwards. -/
def fileWrite (sep : Sep) (doc : Cont) : Str := writeText sep (dumps doc)

/-! ## Positions of errors, source.py:172-181 -/

/-- characters at which `str.splitlines` breaks, apart from the pair CR LF -/
def isLineBreak (c : Chr) : Bool :=
  (10 ≤ c && c ≤ 13) || (28 ≤ c && c ≤ 30) || c == 0x85 || c == 0x2028 || c == 0x2029

/-- `str.splitlines()`; `cur` is the line under construction, in reverse -/
def splitLinesAux (cur : Str) : Str → List Str
  | [] => if cur.isEmpty then [] else [cur.reverse]
  | 13 :: 10 :: r => cur.reverse :: splitLinesAux [] r
  | c :: r => if isLineBreak c then cur.reverse :: splitLinesAux [] r else splitLinesAux (c :: cur) r

/-- `str.splitlines()` -/
def splitLines (s : Str) : List Str := splitLinesAux [] s

/-- The loop of `_to_linecol`, source.py:173-179: `i` lines seen, `cur` their length. -/
def lineColLoop (idx : Nat) : Nat → Nat → List Str → Option (Nat × Nat)
  | _, _, [] => none
  | i, cur, l :: r => if cur + l.length + 1 > idx then some (i + 1, idx - cur) else lineColLoop idx (i + 1) (cur + l.length + 1) r

/-- `Source._to_linecol` at position `idx`, source.py:172-181. -/
def toLineCol (s : Str) (idx : Nat) : Nat × Nat :=
  match lineColLoop idx 0 0 (splitLines s) with
  | some p => p
  | none => ((splitLines s).length, 0)

/-- line and column of the `ParseError` that `parse(s)` raises, if it raises one; `rem` characters remained, so
the position is `len(s) - rem` (source.py:160-170) -/
def errorPosition (s : Str) : Option (Nat × Nat) :=
  match parse s with
  | .error (.parse _ rem) => some (toLineCol s (s.length - rem))
  | _ => none

/-! ## Custom encoders, items.py:214-228 and api.py:293-308 -/

/-- What a custom encoder does on a value: an item, another object, `TypeError`, or another exception. -/
inductive EncResult (α : Type)
  | item (i : α)
  | notItem
  | typeError
  | raises
deriving DecidableEq, Repr

/-- What `item(value)` does for a value of no built-in type. -/
inductive ConvertResult (α : Type)
  | item (i : α)
  | convertError
  | raises
deriving DecidableEq, Repr

/-- The encoder loop of `item`, items.py:214-228. Encoders are values of a type `E` with an effect `run`. -/
def tryEncoders {E V α : Type} (run : E → V → EncResult α) (v : V) : List E → ConvertResult α
  | [] => .convertError
  | e :: r =>
    match run e v with
    | .typeError => tryEncoders run v r
    | .item i => .item i
    | .notItem => .convertError
    | .raises => .raises

/-- `register_encoder`, api.py:296-303 -/
def registerEncoder {E : Type} (reg : List E) (e : E) : List E := reg ++ [e]

/-- `unregister_encoder`, api.py:305-308: `list.remove`, a missing encoder is ignored -/
def unregisterEncoder {E : Type} [DecidableEq E] : List E → E → List E
  | [], _ => []
  | x :: r, e => if x = e then r else x :: unregisterEncoder r e

end Tomlkit
