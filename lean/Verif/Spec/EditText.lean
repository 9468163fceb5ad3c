import Verif.Model.Ops
/-!
# What the claims about the text of an edited document (C14, C15, C17) mean
-/
namespace Tomlkit.Spec
open Tomlkit

/-- What `doc[path][k]` is when nothing on the way is written in several places: the key as it is spelled in the document,
and the value. -/
def valueAt : List Step → Cont → Str → Option (SKey × Item)
  | [], c, k =>
    match mapGet k c.map with
    | some [i] => (match c.body[i]? with
      | some (.mk (some key) v) => some (key, v)
      | _ => none)
    | _ => none
  | .key s :: r, c, k =>
    match mapGet s c.map with
    | some [i] => (match c.body[i]? with
      | some (.mk _ (.table tb)) => valueAt r tb.cont k
      | some (.mk _ (.inline ci _ _)) => valueAt r ci k
      | _ => none)
    | _ => none
  | .elem s j :: r, c, k =>
    match mapGet s c.map with
    | some [i] => (match c.body[i]? with
      | some (.mk _ (.aot ts _ _ _)) => (match ts[j]? with
        | some tb => valueAt r tb.cont k
        | none => none)
      | _ => none)
    | _ => none

/-- The text `s'` is the text `s` with one thing replaced: after the spelling of the key and the separator, the value text
`new` stands instead of `old`. (`dot` is empty, except for a dotted key inside an inline table.) -/
def ValueReplaced (key : SKey) (old new s s' : Str) : Prop :=
  ∃ pre dot post, (key.dotted = false → dot = []) ∧
    s = pre ++ key.orig ++ dot ++ key.sep ++ old ++ post ∧ s' = pre ++ key.orig ++ dot ++ key.sep ++ new ++ post

/-- The text of a value, written where `old` was: a multi-line array uses the indentation of the line, everything else is
its own text. -/
def textAt (v old : Item) : Str :=
  match v with
  | .array gs t ml => if ml then (Item.array gs { t with indent := old.trivia.indent } ml).asString else v.asString
  | _ => v.asString

/-- A value text: not empty, and not ending with a comma or a blank. -/
def Solid (s : Str) : Prop := ∃ r c, s = r ++ [c] ∧ c ≠ 44 ∧ c ≠ 32

/-- an item that may stand after `k =`, with no comment of its own -/
def IsValue (v : Item) : Prop :=
  v.isTableLike = false ∧ v.isWhitespace = false ∧ v.isComment = false ∧ v.trivia.comment = [] ∧ v.trivia.commentWs = []

/-- where a container is rendered: the document, or below a header: is the key dotted, is it an element of an array of
tables, and the header name -/
abbrev Ctx := Option (Bool × Bool × Str)

/-- the prefix for tables -/
def Ctx.tp (ctx : Ctx) (e : Entry) : Option Str :=
  match ctx with
  | none => none
  | some (kd, ia, key) => match e.v with
    | .table tb => if tb.isSuper && isDottedKey e.key && (ia || !kd) then none else some key
    | _ => some key
/-- the prefix for values -/
def Ctx.sp (ctx : Ctx) : Option Str :=
  match ctx with
  | none => none
  | some (kd, ia, key) => if kd && !ia then some key else none

/-- an entry in its context -/
def renderIn (ctx : Ctx) (e : Entry) : Str := e.render (ctx.tp e) ctx.sp
/-- what a path through tables leads to: the document itself, a table, or an element of an array of tables -/
inductive Place
  | doc (c : Cont)
  | table (key : SKey) (tb : Tbl)
  | elem (tb : Tbl)

/-- its container -/
def Place.cont : Place → Cont
  | .doc c => c
  | .table _ tb | .elem tb => tb.cont

/-- its kind, as the operations see it -/
def Place.holder : Place → Holder
  | .doc _ => .doc
  | .table _ tb | .elem tb => .table tb.trivia

/-- follow a path of tables -/
def place : List Step → Place → Option Place
  | [], x => some x
  | .key k :: r, x =>
    match mapGet k x.cont.map with
    | some [i] => (match x.cont.body[i]? with
      | some (.mk (some key) (.table tb)) => place r (.table key tb)
      | _ => none)
    | _ => none
  | .elem k j :: r, x =>
    match mapGet k x.cont.map with
    | some [i] => (match x.cont.body[i]? with
      | some (.mk (some _) (.aot ts _ _ _)) => (match ts[j]? with
        | some tb => place r (.elem tb)
        | none => none)
      | _ => none)
    | _ => none

/-- the name of an entry -/
def nameOf (e : Entry) : Option Str := e.key.map SKey.key

/-- The header of the table is written after the deletion of `k` as it was before. A table read from a text or made by
`table()` and given a header in the document has its own line end; what remains is that a header is not written only
because of `k`: the table is no super table, or it is never written with a header (dotted keys), or `k` is a table, or
another value remains; for a table made by `table()`, whose flag is not set, that it has no sub-tables. -/
def KeepsHeader : Place → Str → Prop
  | .table key tb, k => hasNl tb.trivia.trail = true ∧
    (tb.superFlag = some false ∨ tb.superFlag = some true ∧
      (key.dotted = true ∨ (∀ e ∈ tb.cont.body, nameOf e = some k → e.v.isPlain = false) ∨
        ∃ e ∈ tb.cont.body, nameOf e ≠ some k ∧ e.v.isPlain = true) ∨
      tb.superFlag = none ∧ ∀ e ∈ tb.cont.body, e.v.isTableLike = false)
  | _, _ => True

/-- Where a path leads, inline tables included: what the container belongs to, and the container. -/
def ends : List Step → Holder → Cont → Option (Holder × Cont)
  | [], h, c => some (h, c)
  | .key s :: r, _, c =>
    match mapGet s c.map with
    | some [i] => (match c.body[i]? with
      | some (.mk _ (.table tb)) => ends r (.table tb.trivia) tb.cont
      | some (.mk _ (.inline ci t new)) => ends r (.inline t new) ci
      | _ => none)
    | _ => none
  | .elem s j :: r, _, c =>
    match mapGet s c.map with
    | some [i] => (match c.body[i]? with
      | some (.mk _ (.aot ts _ _ _)) => (match ts[j]? with
        | some tb => ends r (.table tb.trivia) tb.cont
        | none => none)
      | _ => none)
    | _ => none

/-- an entry from which on the text belongs to another table: a table or array of tables with its own header (dotted keys
have none) -/
def opensTable (e : Entry) : Bool := e.v.isTableLike && !isDottedKey e.key

/-- the same entries, except that the last one may get the line end it lacks -/
def ClosesLine (b b' : List Entry) : Prop :=
  b' = b ∨ ∃ init key v, b = init ++ [.mk key v] ∧
    (v.isWhitespace = false ∧ endsWithWs v = false ∧ hasNl v.trivia.trail = false) ∧
    b' = init ++ [.mk key (v.setTrivia { v.trivia with trail := v.trivia.trail ++ [10] })]

end Tomlkit.Spec
