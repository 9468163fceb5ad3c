import Verif.Model.Ops
import Verif.Model.Convert
import Verif.Spec.Convert
/-!
# What the claims about editing key/value documents (C18, C33) mean

A document of key/value lines is compared with a list of lines: items, each with its comment, and comments on lines of
their own. Blank lines carry no data and are not listed.
-/
namespace Tomlkit.Spec
open Tomlkit _root_.Spec

/-- A line with data: a key with its Python value and the comment behind it, or a comment. -/
inductive Line
  | item (k : Str) (w : PyVal) (comment : Option Str)
  | comment (s : Str)

/-- the key of a line -/
def Line.key? : Line → Option Str
  | .item k _ _ => some k
  | .comment _ => none

/-- The items of the lines as a Python `dict`, in order. -/
def itemsOf (ls : List Line) : List PyPair := ls.flatMap fun l => match l with
  | .item k w _ => [.mk k w]
  | .comment _ => []

/-- The comments of the lines, in order. -/
def notesOf (ls : List Line) : List Str := ls.flatMap fun l => match l with
  | .item _ _ c => c.toList
  | .comment s => [s]

/-- The edits of a user. -/
inductive Edit
  /-- `doc[k] = w`, or `doc[k] = item(w, _parent=p)` -/
  | set (k : Str) (w : PyVal) (p : Parent)
  /-- `doc.add(k, w)`, `doc.append(k, w)` -/
  | add (k : Str) (w : PyVal) (p : Parent)
  /-- `del doc[k]`, `doc.remove(k)` -/
  | remove (k : Str)
  /-- `doc.add(comment(s))` -/
  | comment (s : Str)
  /-- `doc.add(nl())` -/
  | nl
  /-- `doc.item(k).comment(s)` -/
  | note (k s : Str)

/-- what the library does -/
def Edit.run (c : Cont) : Edit → Except Err Cont
  | .set k w p => match w.toItem false p with
    | .error e => .error e
    | .ok v => Op.run .doc c (.set k v)
  | .add k w p => match w.toItem false p with
    | .error e => .error e
    | .ok v => Op.run .doc c (.append k v)
  | .remove k => Op.run .doc c (.remove k)
  | .comment s => Op.run .doc c (.add (apiComment s))
  | .nl => Op.run .doc c (.add (apiWs [10]))
  | .note k s => c.note k s

/-- is there an item with this key? -/
def hasItem (ls : List Line) (k : Str) : Bool := ls.any fun l => l.key? == some k

/-- The text of a comment given by the user: `# ` is put in front unless there is a `#` already; spaces in front of it do not
belong to the comment. -/
def noteText (s : Str) : Str :=
  if (s.dropWhile isUniSpace).head? = some 35 then s.dropWhile isSpaces else t!"# " ++ s

/-- what it means: a new item goes to the end, a replaced item keeps its place and its comment -/
def Edit.onLines (ls : List Line) : Edit → Except Err (List Line)
  | .set k w _ =>
    if hasItem ls k then .ok (ls.map fun l => match l with
      | .item k' w' c => if k' = k then .item k w c else .item k' w' c
      | .comment s => .comment s)
    else .ok (ls ++ [.item k w none])
  | .add k w _ => if hasItem ls k then .error .keyAlreadyPresent else .ok (ls ++ [.item k w none])
  | .remove k => if hasItem ls k then .ok (ls.filter fun l => !(l.key? == some k)) else .error .nonExistentKey
  | .comment s => .ok (ls ++ [.comment (t!"# " ++ s)])
  | .nl => .ok ls
  | .note k s =>
    if hasItem ls k then .ok (ls.map fun l => match l with
      | .item k' w' c => if k' = k then .item k' w' (some (noteText s)) else .item k' w' c
      | .comment s => .comment s)
    else .error .nonExistentKey

/-- A value that stays on its line: a Python value made of scalars, lists and dicts that `item` turns neither into a table
nor into an array of tables. -/
def OneLine (w : PyVal) (p : Parent) : Prop :=
  KeysOnce w ∧ Writable w ∧ ((∀ l, w = .dict l → p = .array ∨ p = .inline) ∧
    ∀ l, w = .list l → l = [] ∨ (∃ x ∈ l, x.isDict = false) ∨ p = .array ∨ p = .inline)

/-- text without line breaks and control characters, tabs excepted -/
def OneLineText (s : Str) : Prop := ∀ x ∈ s, isCommentChar x = true

/-- the edits considered: values on one line, comments on one line; a `#` of a comment text has only spaces and tabs in
front -/
def Edit.Fit : Edit → Prop
  | .set _ w p | .add _ w p => OneLine w p
  | .comment s => OneLineText s
  | .note _ s => OneLineText s ∧ ((s.dropWhile isUniSpace).head? = some 35 → ∀ x ∈ s.takeWhile isUniSpace, isSpaces x = true)
  | .remove _ | .nl => True

/-- edits that put a line behind the last one without looking at it -/
def Edit.addsLine : Edit → Prop
  | .comment _ | .nl => True
  | _ => False

/-- The document after a sequence of edits; an edit that raises leaves it as it is. -/
def docAfter (c : Cont) : List Edit → Cont
  | [] => c
  | e :: r => match e.run c with
    | .ok c' => docAfter c' r
    | .error _ => docAfter c r

/-- the same on lines -/
def linesAfter (ls : List Line) : List Edit → List Line
  | [] => ls
  | e :: r => match e.onLines ls with
    | .ok ls' => linesAfter ls' r
    | .error _ => linesAfter ls r

/-- every carriage return of the text is followed by a line feed -/
def NoLoneCr : Str → Prop
  | [] => True
  | c :: r => (c = 13 → ∃ r', r = 10 :: r') ∧ NoLoneCr r

/-- the only white space of the text is blanks, tabs and line ends (`isUniSpace` is Python's `str.isspace`) -/
def PlainSpace (s : Str) : Prop := ∀ c ∈ s, isUniSpace c = true → c = 32 ∨ c = 9 ∨ c = 10 ∨ c = 13

/-- What stands on the lines of a document without tables: for every entry with a key, the key, the data of the value (what
`.unwrap()` gives) and the comment behind it; for every comment line, the comment; other entries (blank lines) hold nothing. -/
inductive LinesOf : List Entry → List Line → Prop
  | nil : LinesOf [] []
  | blank {v : Item} {es : List Entry} {ls : List Line} (hv : v.trivia.comment = []) (h : LinesOf es ls) : LinesOf (.mk none v :: es) ls
  | comment {t : Trivia} {es : List Entry} {ls : List Line} (ht : t.comment ≠ []) (h : LinesOf es ls) :
      LinesOf (.mk none (.comment t) :: es) (.comment t.comment :: ls)
  | item {k : SKey} {v : Item} {w : PyVal} {es : List Entry} {ls : List Line} (hw : ∃ n, v.unwrap n = .ok w) (h : LinesOf es ls) :
      LinesOf (.mk (some k) v :: es) (.item k.key w (if v.trivia.comment = [] then none else some v.trivia.comment) :: ls)

/-- equal but for spaces and tabs at the end of the first -/
def EqualUpToSpaces (a b : Str) : Prop := ∃ sp : Str, (∀ c ∈ sp, isSpaces c = true) ∧ a = b ++ sp

/-- element by element -/
inductive ListRel {α β : Type} (R : α → β → Prop) : List α → List β → Prop
  | nil : ListRel R [] []
  | cons {a b l m} (h : R a b) (t : ListRel R l m) : ListRel R (a :: l) (b :: m)

/-- the comments of a container, in order -/
def _root_.Tomlkit.Cont.comments (c : Cont) : List Str :=
  c.body.flatMap fun e => if e.v.trivia.comment.isEmpty then [] else [e.v.trivia.comment]

end Tomlkit.Spec
