import Verif.Spec.FlatEdit
/-!
# What the claim about replacing values anywhere in a document (C40) means
-/
namespace Tomlkit.Spec
open Tomlkit _root_.Spec

/-- a value: what may stand after `k =` -/
def isLineValue : Item → Bool
  | .ws .. | .comment _ | .table _ | .aot .. | .null _ => false
  | _ => true

/-- What `doc[path][k]` is, for a path through tables and elements of arrays of tables that are each written in one place: the key as it is
spelled, and the value. (Not through inline tables: their values are no lines.) -/
def lineAt : List Step → Cont → Str → Option (SKey × Item)
  | [], c, k =>
    match mapGet k c.map with
    | some [i] => (match c.body[i]? with
      | some (.mk (some key) v) => if isLineValue v then some (key, v) else none
      | _ => none)
    | _ => none
  | .key s :: r, c, k =>
    match mapGet s c.map with
    | some [i] => (match c.body[i]? with
      | some (.mk _ (.table tb)) => lineAt r tb.cont k
      | _ => none)
    | _ => none
  | .elem s j :: r, c, k =>
    match mapGet s c.map with
    | some [i] => (match c.body[i]? with
      | some (.mk _ (.aot ts _ _ _)) => (match ts[j]? with
        | some tb => lineAt r tb.cont k
        | none => none)
      | _ => none)
    | _ => none

/-- `doc[path][k] = w`, or `doc[path][k] = item(w, _parent=p)` -/
structure ValueEdit where
  /-- the tables on the way -/
  path : List Step
  /-- the key -/
  key : Str
  /-- the new value -/
  value : PyVal
  /-- the parent given to `item` -/
  parent : Parent

/-- what the library does -/
def ValueEdit.run (c : Cont) (e : ValueEdit) : Except Err Cont :=
  match e.value.toItem false e.parent with
  | .error x => .error x
  | .ok v => Cont.atPath (.set e.key v) e.path .doc c

/-- all edits, one after the other -/
def editAll (c : Cont) (es : List ValueEdit) : Except Err Cont := foldE ValueEdit.run c es

/-- What may come between the value and the comment: spaces only, or spaces and tabs of which a tab is the first. -/
def EvenSpace (b : Str) : Prop := (∀ c ∈ b, c = 32 ∨ c = 9) ∧ ((∀ c ∈ b, c = 32) ∨ ∃ r, b = 9 :: r)

/-- The edit replaces a value by a value: the key is there, with a value; the new value stays on the line. -/
def ValueEdit.Fit (c : Cont) (e : ValueEdit) : Prop :=
  OneLine e.value e.parent ∧ ∃ key old, lineAt e.path c e.key = some (key, old) ∧ EvenSpace old.trivia.commentWs

/-- every edit, at its time -/
def EditsFit : Cont → List ValueEdit → Prop
  | _, [] => True
  | c, e :: r => e.Fit c ∧ ∀ c', e.run c = .ok c' → EditsFit c' r

deriving instance DecidableEq for Step

/-- the value last given to `doc[path][k]` -/
def lastValue : List ValueEdit → List Step → Str → Option PyVal
  | [], _, _ => none
  | e :: r, p, k => match lastValue r p k with
    | some w => some w
    | none => if e.path = p ∧ e.key = k then some e.value else none

/-- the item holds the value -/
def Holding (v : Item) (w : PyVal) : Prop := ∃ w', (∃ n, v.unwrap n = .ok w') ∧ Same w w'

/-- the same key and value at both places, written alike, with the same comment behind it; or nothing at both -/
def SameLine : Option (SKey × Item) → Option (SKey × Item) → Prop
  | none, none => True
  | some (k, v), some (k', v') => k' = k ∧ v'.asString = v.asString ∧ v'.trivia.comment = v.trivia.comment ∧
      ∀ w, (∃ n, v.unwrap n = .ok w) ↔ ∃ n, v'.unwrap n = .ok w
  | _, _ => False

/-- the same data: whatever `unwrap()` of one gives, `unwrap()` of the other gives too -/
def SameData (a b : Cont) : Prop := ∀ l, (∃ n, a.unwrap n = .ok l) ↔ ∃ n, b.unwrap n = .ok l

end Tomlkit.Spec
