import Verif.Model.Ops
import Verif.Model.Copies
/-!
# The methods documents and tables inherit from `MutableMapping`

`_CustomDict(MutableMapping, dict)`, _types.py:55-65, takes `pop`, `popitem`, `clear`, `update` and `get` from
`collections.abc`; `setdefault` is overridden in container.py:638-640 and items.py:1499-1501. They are loops over
`d[k]`, `d[k] = v`, `del d[k]` and `iter(d)`. Simplification: an exception gives the exception only, not the state of
the container at that moment.
-/
namespace Tomlkit

/-- `d[k]`, container.py:621-626, 457-472: the item, or for a table written in several places the positions; building
the proxy can raise. -/
def Cont.getItem (c : Cont) (k : Str) : Except Err (Item ⊕ List Nat) :=
  match c.item k with
  | .error e => .error e
  | .ok (.inl v) => .ok (.inl v)
  | .ok (.inr is) => match Cont.mkProxy (fuelFor c (.null {})) c is with
    | .error e => .error e
    | .ok _ => .ok (.inr is)

/-- `NonExistentKey` is a `KeyError`, exceptions.py:184-192 -/
def Err.isKeyError : Err → Bool
  | .nonExistentKey => true
  | _ => false

/-- `d.get(k)`: `Mapping.get`; `none` is the default -/
def Cont.get (c : Cont) (k : Str) : Except Err (Option (Item ⊕ List Nat)) :=
  match c.getItem k with
  | .ok v => .ok (some v)
  | .error e => if e.isKeyError then .ok none else .error e

/-- `d.pop(k)`, `d.pop(k, default)`: `MutableMapping.pop`; the result `none` is the default -/
def Cont.pop (h : Holder) (c : Cont) (k : Str) (dflt : Bool) : Except Err (Cont × Option (Item ⊕ List Nat)) :=
  match c.getItem k with
  | .error e => if e.isKeyError && dflt then .ok (c, none) else .error e
  | .ok v => match (Op.remove k).run h c with
    | .error e => .error e
    | .ok c' => .ok (c', some v)

/-- `d.popitem()`: `MutableMapping.popitem` takes the first key of `iter(d)`; `none` is the `KeyError` of an empty
container. `Container.__iter__`, container.py:617-618, goes through the shadow `dict`. -/
def Cont.popitem (h : Holder) (c : Cont) : Option (Except Err (Cont × Str × (Item ⊕ List Nat))) :=
  match c.dict with
  | [] => none
  | k :: _ => some <| match c.getItem k with
    | .error e => .error e
    | .ok v => match (Op.remove k).run h c with
      | .error e => .error e
      | .ok c' => .ok (c', k, v)

/-- `while True: self.popitem()` until a `KeyError`, with a bound on the rounds -/
def Cont.clearLoop (h : Holder) : Nat → Cont → Except Err Cont
  | 0, _ => .error .fuel
  | n + 1, c => match c.popitem h with
    | none => .ok c
    | some (.error e) => if e.isKeyError then .ok c else .error e
    | some (.ok p) => Cont.clearLoop h n p.1

/-- `d.clear()`: `MutableMapping.clear` -/
def Cont.clear (h : Holder) (c : Cont) : Except Err Cont := c.clearLoop h (c.dict.length + 1)

/-- `d.update(other)`, `d |= other` (_types.py:63-65): `MutableMapping.update` for a mapping or a list of pairs -/
def Cont.update (h : Holder) (c : Cont) (l : List (Str × Item)) : Except Err Cont :=
  foldE (fun c p => (Op.set p.1 p.2).run h c) c l

/-- `d | other`, _types.py:58-61: `self.copy()`, then `update` on the copy. What the copy shares with `d` is not modelled (see
`Model/Copies.lean`): in the code the first key added can give a line end to the last item of `d`, too. -/
def Cont.or (h : Holder) (c : Cont) (l : List (Str × Item)) : Except Err Cont := c.shallow.update h l

/-- `d.setdefault(k, v)`, container.py:638-640, items.py:1499-1501: `MutableMapping.setdefault`, then `d[k]` -/
def Cont.setdefault (h : Holder) (c : Cont) (k : Str) (v : Item) : Except Err (Cont × (Item ⊕ List Nat)) :=
  let r : Except Err Cont := match c.getItem k with
    | .ok _ => .ok c
    | .error e => if e.isKeyError then (Op.set k v).run h c else .error e
  match r with
  | .error e => .error e
  | .ok c' => match c'.getItem k with
    | .error e => .error e
    | .ok w => .ok (c', w)

end Tomlkit
