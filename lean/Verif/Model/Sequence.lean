import Verif.Model.Arrays
/-!
# The methods arrays and arrays of tables inherit from `MutableSequence`

`_CustomList(MutableSequence, list)`, _types.py:43-53. `Array` and `AoT` define `__len__`, `__getitem__`,
`__setitem__`, `__delitem__` and `insert` (items.py:1326-1426, 1877-1922); `append`, `extend`, `pop`, `remove`,
`reverse`, `index`, `count`, `in`, iteration, `reversed` and, for `AoT`, `clear` are the loops of
`collections.abc.MutableSequence` over these; `+` and `+=` are _types.py:46-53; `sort` and `*=` come from `list`.
Simplification: a method that raises gives the exception only, not the state of the object at that moment.
-/
namespace Tomlkit

/-- The five methods a class derived from `MutableSequence` defines. -/
structure SeqImpl (σ α : Type) where
  len : σ → Nat
  get : σ → Int → Except Err α
  set : σ → Int → α → Except Err σ
  del : σ → Int → Except Err σ
  insert : σ → Int → α → Except Err σ

namespace SeqImpl
variable {σ α : Type} (I : SeqImpl σ α)

/-- `MutableSequence.append`: `self.insert(len(self), value)` -/
def append (s : σ) (x : α) : Except Err σ := I.insert s (I.len s) x

/-- `MutableSequence.extend`, and `+=` (_types.py:51-53): append one by one -/
def extend : List α → σ → Except Err σ
  | [], s => .ok s
  | x :: r, s => match I.append s x with
    | .error e => .error e
    | .ok t => extend r t

/-- `MutableSequence.pop(k)`: `v = self[k]; del self[k]; return v` -/
def pop (s : σ) (k : Int) : Except Err (σ × α) :=
  match I.get s k with
  | .error e => .error e
  | .ok v => match I.del s k with
    | .error e => .error e
    | .ok t => .ok (t, v)

/-- the loop of `Sequence.index`, with a bound on the rounds; `eq v` is `v is value or v == value` -/
def indexLoop (s : σ) (eq : α → Bool) (stop : Option Int) : Nat → Int → Except Err Int
  | 0, _ => .error .fuel
  | n + 1, i =>
    if stop.all fun e => decide (i < e) then
      match I.get s i with
      | .error .indexError => .error .valueError
      | .error e => .error e
      | .ok v => if eq v then .ok i else indexLoop s eq stop n (i + 1)
    else .error .valueError

/-- `Sequence.index(value, start, stop)` -/
def index (s : σ) (eq : α → Bool) (start : Int) (stop : Option Int) : Except Err Int :=
  let start := if start < 0 then max (I.len s + start) 0 else start
  let stop := stop.map fun (e : Int) => if e < 0 then e + I.len s else e
  I.indexLoop s eq stop (I.len s + 1) start

/-- `MutableSequence.remove(value)`: `del self[self.index(value)]` -/
def remove (s : σ) (eq : α → Bool) : Except Err σ :=
  match I.index s eq 0 none with
  | .error e => .error e
  | .ok i => I.del s i

/-- the loop of `Sequence.__iter__`: `self[0]`, `self[1]`, ... until `IndexError`, with a bound on the rounds -/
def iterLoop (s : σ) : Nat → Int → Except Err (List α)
  | 0, _ => .error .fuel
  | n + 1, i => match I.get s i with
    | .error .indexError => .ok []
    | .error e => .error e
    | .ok v => (iterLoop s n (i + 1)).map (v :: ·)

/-- `list(iter(a))` -/
def iter (s : σ) : Except Err (List α) := I.iterLoop s (I.len s + 1) 0

/-- `value in a`: `Sequence.__contains__` goes through the iterator -/
def contains (s : σ) (eq : α → Bool) : Except Err Bool := (I.iter s).map (·.any eq)

/-- `Sequence.count(value)` -/
def count (s : σ) (eq : α → Bool) : Except Err Nat := (I.iter s).map (·.countP eq)

/-- the loop of `Sequence.__reversed__`: `self[n-1]`, ..., `self[0]` -/
def reversedLoop (s : σ) : Nat → Except Err (List α)
  | 0 => .ok []
  | n + 1 => match I.get s n with
    | .error e => .error e
    | .ok v => (reversedLoop s n).map (v :: ·)

/-- `list(reversed(a))` -/
def reversed (s : σ) : Except Err (List α) := I.reversedLoop s (I.len s)

/-- `self[i], self[n-i-1] = self[n-i-1], self[i]`: both reads, then both assignments, left to right -/
def swap (s : σ) (n i : Nat) : Except Err σ :=
  match I.get s ((n : Int) - i - 1) with
  | .error e => .error e
  | .ok x => match I.get s i with
    | .error e => .error e
    | .ok y => match I.set s i x with
      | .error e => .error e
      | .ok t => I.set t ((n : Int) - i - 1) y

/-- rounds `i`, `i + 1`, ... of the loop of `MutableSequence.reverse` -/
def reverseLoop (n : Nat) : (rounds i : Nat) → σ → Except Err σ
  | 0, _, s => .ok s
  | r + 1, i, s => match I.swap s n i with
    | .error e => .error e
    | .ok t => reverseLoop n r (i + 1) t

/-- `MutableSequence.reverse`: `for i in range(n//2)` -/
def reverse (s : σ) : Except Err σ := I.reverseLoop (I.len s) (I.len s / 2) 0 s

/-- `while True: self.pop()` until `IndexError`, with a bound on the rounds -/
def clearLoop : Nat → σ → Except Err σ
  | 0, _ => .error .fuel
  | n + 1, s => match I.pop s (-1) with
    | .error .indexError => .ok s
    | .error e => .error e
    | .ok p => clearLoop n p.1

/-- `MutableSequence.clear` -/
def clear (s : σ) : Except Err σ := I.clearLoop (I.len s + 1) s

end SeqImpl

/-! ## Array -/

/-- What an element of an array is to the caller of `a[k]`, and what `a[j] = a[k]` stores: booleans leave the array as
Python booleans (items.py:1331-1332) and come back as new items (`item(True)`, items.py:155-156), with a default
trivia; all other elements are the items themselves. -/
def Item.handed : Item → Item
  | .bool b _ => .bool b {}
  | it => it

/-- `Array.__getitem__(k)` for an integer index, items.py:1329-1333. -/
def ArrObj.getItem (a : ArrObj) (k : Int) : Except Err Item :=
  match pyIndex k a.list.length with
  | none => .error .indexError
  | some i => match a.list[i]? with
    | none => .error .indexError
    | some it => .ok it.handed

/-- `Array.__getitem__(slice)`, items.py:1329-1333: `list.__getitem__` gives a plain `list`, and line 1331 asks it
for `is_boolean`, which a `list` does not have; step zero already raises in `list.__getitem__`. -/
def ArrObj.getSlice (a : ArrObj) (s : PySlice) : Except Err (List Item) :=
  match s.indices a.list.length with
  | none => .error .valueError
  | some _ => .error .attributeError

/-- `Array`, items.py:1326-1426; `Array.clear` is `ArrObj.clear`. -/
def arraySeq : SeqImpl ArrObj Item where
  len a := a.list.length
  get := ArrObj.getItem
  set := ArrObj.setItem
  del := ArrObj.delItem
  insert := ArrObj.insert

/-- `list.sort`: the built-in list part is sorted; nothing else knows. `sorted` is what Python's sort makes of the
elements. -/
def ArrObj.sort (a : ArrObj) (sorted : List Item → List Item) : ArrObj := { a with list := sorted a.list }

/-- `a *= n`: `list.__imul__`, on the built-in list part only -/
def ArrObj.imul (a : ArrObj) (n : Int) : ArrObj := { a with list := (List.replicate n.toNat a.list).flatten }

/-! ## AoT -/

/-- `AoT.__getitem__(k)`, items.py:1884-1885, for an integer index: the table object of the body. -/
def AoTObj.getItem (a : AoTObj) (k : Int) : Except Err (Nat × Tbl) :=
  match pyIndex k a.tables.length with
  | none => .error .indexError
  | some i => match a.ids[i]?, a.tables[i]? with
    | some id, some t => .ok (id, t)
    | _, _ => .error .indexError

/-- `AoT`, items.py:1877-1922: `__setitem__` raises `NotImplementedError`. -/
def aotSeq : SeqImpl AoTObj (Nat × Tbl) where
  len a := a.tables.length
  get := AoTObj.getItem
  set _ _ _ := .error .notImplemented
  del := AoTObj.delItem
  insert a k p := .ok (a.insert k p.1 p.2)

end Tomlkit
