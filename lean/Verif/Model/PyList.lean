/-!
# Python's list operations (builtins, not tomlkit code)

Indexing, `insert`, `del` by index and by slice, `range`, `slice.indices`: the semantics of the Python language that
`Array` and `AoT` call and that a user compares them with.
-/
namespace Tomlkit

/-- A Python index into a list of length `n`: negative ones count from the end; `none` is `IndexError`. -/
def pyIndex (k : Int) (n : Nat) : Option Nat :=
  let i := if k < 0 then k + n else k
  if 0 ≤ i && i < n then some i.toNat else none

/-- The position at which `list.insert(k, x)` inserts: negative indices count from the end, then clamp. -/
def pyInsertPos (k : Int) (n : Nat) : Nat :=
  if k < 0 then (k + n).toNat else min k.toNat n

/-- `l.insert(k, x)` -/
def pyInsert {α : Type} (l : List α) (k : Int) (x : α) : List α := l.insertIdx (pyInsertPos k l.length) x

/-- `l[k] = x`; `none` is `IndexError` -/
def pySet {α : Type} (l : List α) (k : Int) (x : α) : Option (List α) :=
  (pyIndex k l.length).map fun i => l.set i x

/-- `del l[k]`; `none` is `IndexError` -/
def pyDel {α : Type} (l : List α) (k : Int) : Option (List α) :=
  (pyIndex k l.length).map fun i => l.eraseIdx i

/-- A slice object; absent parts are `None`. -/
structure PySlice where
  start : Option Int := none
  stop : Option Int := none
  step : Option Int := none
deriving DecidableEq, Repr

/-- number of elements of `range(a, b, s)` -/
def pyRangeLen (a b s : Int) : Nat :=
  if 0 < s then ((b - a + s - 1) / s).toNat else if s < 0 then ((a - b + (-s) - 1) / (-s)).toNat else 0

/-- the elements of `range(a, b, s)` -/
def pyRange (a b s : Int) : List Int := (List.range (pyRangeLen a b s)).map fun (i : Nat) => a + s * (i : Int)

/-- one end of a slice, clamped: CPython's `PySlice_AdjustIndices` -/
def sliceEnd (v : Option Int) (dflt lower upper n : Int) : Int :=
  match v with
  | none => dflt
  | some x => if x < 0 then (if x + n < lower then lower else x + n) else if x > upper then upper else x

/-- `range(*slice.indices(n))`: the positions a slice denotes; `none` is `ValueError` (step zero) -/
def PySlice.indices (s : PySlice) (n : Nat) : Option (List Int) :=
  let step := s.step.getD 1
  if step = 0 then none
  else
    let lower : Int := if step < 0 then -1 else 0
    let upper : Int := if step < 0 then n - 1 else n
    let start := sliceEnd s.start (if step < 0 then upper else lower) lower upper n
    let stop := sliceEnd s.stop (if step < 0 then lower else upper) lower upper n
    some (pyRange start stop step)

/-- the elements at positions outside a list of positions -/
def eraseIdxs {α : Type} (l : List α) (is : List Int) : List α :=
  (l.zipIdx.filter fun p => !is.contains (p.2 : Int)).map (·.1)

/-- `del l[slice]` -/
def pyDelSlice {α : Type} (l : List α) (s : PySlice) : Option (List α) :=
  (s.indices l.length).map fun is => eraseIdxs l is

end Tomlkit
