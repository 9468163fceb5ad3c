import Verif.Spec.DeepEdit
/-!
# What the claim about edits inside inline tables (C43) means
-/
namespace Tomlkit.Spec
open Tomlkit _root_.Spec

/-- An edit of a table `t` or of a Python `dict`. -/
inductive DictEdit
  /-- `t[k] = w` -/
  | set (k : Str) (w : PyVal)
  /-- `t.add(k, w)`, `t.append(k, w)` -/
  | add (k : Str) (w : PyVal)
  /-- `del t[k]`, `t.remove(k)` -/
  | remove (k : Str)

/-- is the key in the dict? -/
def dictHas (l : List PyPair) (k : Str) : Bool := l.any fun p => p.key == k

/-- replace the value of a key -/
def dictPut (l : List PyPair) (k : Str) (w : PyVal) : List PyPair := l.map fun p => if p.key = k then .mk k w else p

/-- what the edit does to a `dict` -/
def DictEdit.on (l : List PyPair) : DictEdit → Except Err (List PyPair)
  | .set k w => .ok (if dictHas l k then dictPut l k w else l ++ [.mk k w])
  | .add k w => if dictHas l k then .error .keyAlreadyPresent else .ok (l ++ [.mk k w])
  | .remove k => if dictHas l k then .ok (l.filter fun p => !(p.key == k)) else .error .nonExistentKey

/-- `d[k1][k2]...` is edited, where `d` is a `dict` with dicts in it -/
def DictEdit.within (e : DictEdit) : List Str → PyVal → Except Err PyVal
  | [], .dict l => (e.on l).map .dict
  | k :: r, .dict l =>
    (match l.find? fun p => p.key == k with
    | none => .error .nonExistentKey
    | some p => (DictEdit.within e r p.val).map fun w => .dict (dictPut l k w))
  | _, _ => .error .typeError

/-- what the library does: the value is made into an item with the inline table as its parent -/
def DictEdit.op : DictEdit → Except Err Op
  | .set k w => (w.toItem false .inline).map (.set k)
  | .add k w => (w.toItem false .inline).map (.append k)
  | .remove k => .ok (.remove k)

/-- A change of the value at `doc[path][key]`. -/
inductive LineChange
  /-- `doc[path][key] = w`, or `... = item(w, _parent=p)` -/
  | assign (w : PyVal) (p : Parent)
  /-- an edit of the inline table `doc[path][key][k1][k2]...` -/
  | inside (keys : List Str) (e : DictEdit)

/-- where, and what -/
structure LineEdit where
  /-- the tables on the way -/
  path : List Step
  /-- the key -/
  key : Str
  /-- the change -/
  change : LineChange

/-- what the library does -/
def LineEdit.run (c : Cont) (e : LineEdit) : Except Err Cont :=
  match e.change with
  | .assign w p => ValueEdit.run c ⟨e.path, e.key, w, p⟩
  | .inside ks d => match d.op with
    | .error x => .error x
    | .ok op => Cont.atPath op (e.path ++ .key e.key :: ks.map .key) .doc c

/-- all edits, one after the other -/
def editLines (c : Cont) (es : List LineEdit) : Except Err Cont := foldE LineEdit.run c es

/-- what the change means for the data -/
def LineChange.on (w : PyVal) : LineChange → Except Err PyVal
  | .assign w' _ => .ok w'
  | .inside ks d => d.within ks w

/-- the changes made at one place, in order -/
def changesAt (es : List LineEdit) (path : List Step) (k : Str) : List LineChange :=
  (es.filter fun e => decide (e.path = path ∧ e.key = k)).map LineEdit.change

/-- a date, a time or both -/
def isDay : PyVal → Bool
  | .date _ | .time _ | .datetime _ => true
  | _ => false

/-- An inline table that was read from a text (the container remembers it), without dotted keys, whose values are no dates or times (dates
inside arrays or inner tables do not matter). -/
def PlainInline (c : Cont) : Prop := c.parsed = true ∧ ∀ e ∈ c.body, ∀ key, e.key = some key → isLineValue e.v = true ∧
  match e.v with
  | .date .. | .time .. | .datetime .. => False
  | _ => True

/-- the edit can be made: what is added is new, what is removed is there; the values stay on the line and are no dates or times -/
def DictEdit.FitIn (c : Cont) : DictEdit → Prop
  | .set _ w => OneLine w .inline ∧ isDay w = false
  | .add k w => k ∉ c.dict ∧ OneLine w .inline ∧ isDay w = false
  | .remove k => k ∈ c.dict

/-- the inner tables on the way are inline tables that were read from the text -/
def DictEdit.Fit (e : DictEdit) : List Str → Cont → Prop
  | [], c => PlainInline c ∧ e.FitIn c
  | k :: r, c => PlainInline c ∧ ∃ ci t, c.item k = .ok (.inl (.inline ci t false)) ∧ DictEdit.Fit e r ci

/-- the conditions on an edit, at its time -/
def LineEdit.Fit (c : Cont) (e : LineEdit) : Prop :=
  match e.change with
  | .assign w p => ValueEdit.Fit c ⟨e.path, e.key, w, p⟩
  | .inside ks d => ∃ key ci t, lineAt e.path c e.key = some (key, .inline ci t false) ∧ EvenSpace t.commentWs ∧ d.Fit ks ci

/-- every edit, at its time -/
def LinesFit : Cont → List LineEdit → Prop
  | _, [] => True
  | c, e :: r => e.Fit c ∧ ∀ c', e.run c = .ok c' → LinesFit c' r

end Tomlkit.Spec
