import Verif.Spec.Convert
import Verif.Model.Sequence
/-!
# What C21 means: an array edited with Python values
-/
namespace Tomlkit

/-- Operations of a user on an array, with plain Python values: `a.insert(k, v)`, `a.append(v)`, `a.extend(vs)`,
`a[k] = v`, `del a[k]`, `a.pop(k)`, `a.clear()`, `a.reverse()`, and `a.add_line(*vs, indent=indent, newline=newline)`. -/
inductive VOp
  | insert (k : Int) (v : PyVal)
  | append (v : PyVal)
  | extend (vs : List PyVal)
  | set (k : Int) (v : PyVal)
  | del (k : Int)
  | pop (k : Int)
  | clear
  | reverse
  | addLine (vs : List PyVal) (indent : Str) (newline : Bool)

/-- the values that an operation brings in -/
def VOp.vals : VOp → List PyVal
  | .insert _ v | .append v | .set _ v => [v]
  | .extend vs | .addLine vs _ _ => vs
  | _ => []

/-- `add_line` is covered for an indent of white space, and for values that are neither booleans nor dicts: of these the code puts
something into the list that is no item (items.py:1285). -/
def VOp.Covered : VOp → Prop
  | .addLine vs indent _ => (∀ v ∈ vs, (∀ b, v ≠ .bool b) ∧ ∀ l, v ≠ .dict l) ∧ ∀ c ∈ indent, isWs c = true
  | _ => True

/-- an `add_line` without values: it only adds white space before the closing bracket -/
def VOp.isBlank : VOp → Bool
  | .addLine vs _ _ => vs.isEmpty
  | _ => false

/-- What the operation does to a plain Python list; `none`: it raises and changes nothing. -/
def VOp.onList (l : List PyVal) : VOp → Option (List PyVal)
  | .insert k v => some (pyInsert l k v)
  | .append v => some (l ++ [v])
  | .extend vs => some (l ++ vs)
  | .set k v => pySet l k v
  | .del k => pyDel l k
  | .pop k => pyDel l k
  | .clear => some []
  | .reverse => some l.reverse
  | .addLine vs _ _ => some (l ++ vs)

/-- a plain list driven by a history of operations; an operation that raises is skipped -/
def vlistHistory : List PyVal → List VOp → List PyVal
  | l, [] => l
  | l, o :: r => vlistHistory ((o.onList l).getD l) r

/-- conversion of several values -/
def convertAll : List PyVal → Except Err (List Item)
  | [] => .ok []
  | v :: r =>
    match v.toItem false .array with
    | .error e => .error e
    | .ok i => (convertAll r).map (i :: ·)

/-- The operation on items: `Array.insert` and `Array.__setitem__` convert their argument with
`item(value, _parent=self)` (items.py:1337, 1345). (For `extend` the code converts and appends one value after the
other; the difference shows only when a conversion raises.) `reverse` brings in no value: see `VOp.onArray`. -/
def VOp.convert : VOp → Except Err LOp
  | .insert k v => (v.toItem false .array).map (.insert k)
  | .append v => (v.toItem false .array).map .append
  | .extend vs => (convertAll vs).map .extend
  | .set k v => (v.toItem false .array).map (.set k)
  | .del k => .ok (.del k)
  | .pop k => .ok (.pop k)
  | .clear => .ok .clear
  | .reverse => .error .notImplemented
  | .addLine vs indent newline => (convertAll vs).map fun is => .addLine is indent none true newline

/-- What the operation does to an array of the model; `reverse` is the loop of `MutableSequence.reverse`. -/
def VOp.onArray (a : ArrObj) : VOp → Except Err ArrObj
  | .reverse => arraySeq.reverse a
  | o => match o.convert with
    | .error e => .error e
    | .ok op => op.onArray a

/-- an array driven by a history of operations; an operation that raises is skipped -/
def arrayEdits : ArrObj → List VOp → ArrObj
  | a, [] => a
  | a, o :: r => arrayEdits (match o.onArray a with | .ok b => b | .error _ => a) r

end Tomlkit
