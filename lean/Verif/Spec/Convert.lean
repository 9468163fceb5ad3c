import Verif.Model.Convert
import Verif.Spec.Lists
import Verif.Spec.Floats
import Verif.Spec.Dates
/-!
# What the conversion claims (C22-C25) mean
-/
namespace Tomlkit.Spec
open Tomlkit _root_.Spec

mutual
/-- Python's `==` on values built from scalars, lists and dicts: the order of the items of a dict does not count. -/
def Same : PyVal → PyVal → Prop
  | .bool b, w => w = .bool b
  | .int n, w => w = .int n
  | .str s, w => w = .str s
  | .date d, w => w = .date d
  | .time t, w => w = .time t
  | .datetime d, w => w = .datetime d
  | .float f, w => w = .float f
  | .none, w => w = .none
  | .list l, w => ∃ l', w = .list l' ∧ SameAll l l'
  | .dict l, w => ∃ l', w = .dict l' ∧ l.length = l'.length ∧ SameIn l l'
termination_by structural v => v
/-- lists are compared element by element -/
def SameAll : List PyVal → List PyVal → Prop
  | [], w => w = []
  | v :: r, w => ∃ v' r', w = v' :: r' ∧ Same v v' ∧ SameAll r r'
termination_by structural l => l
/-- every item of the first dict is in the second -/
def SameIn : List PyPair → List PyPair → Prop
  | [], _ => True
  | p :: r, l => SamePair p l ∧ SameIn r l
termination_by structural l => l
@[inherit_doc SameIn]
def SamePair : PyPair → List PyPair → Prop
  | .mk k v, l => ∃ w, .mk k w ∈ l ∧ Same v w
termination_by structural p => p
end

mutual
/-- every dict inside the value has each key once, as in Python -/
def KeysOnce : PyVal → Prop
  | .list l => KeysOnceAll l
  | .dict l => (l.map PyPair.key).Nodup ∧ KeysOnceIn l
  | _ => True
termination_by structural v => v
@[inherit_doc KeysOnce]
def KeysOnceAll : List PyVal → Prop
  | [] => True
  | v :: r => KeysOnce v ∧ KeysOnceAll r
termination_by structural l => l
@[inherit_doc KeysOnce]
def KeysOnceIn : List PyPair → Prop
  | [] => True
  | p :: r => KeysOncePair p ∧ KeysOnceIn r
termination_by structural l => l
@[inherit_doc KeysOnce]
def KeysOncePair : PyPair → Prop
  | .mk _ v => KeysOnce v
termination_by structural p => p
end

mutual
/-- every value inside the value satisfies `P` -/
def Throughout (P : PyVal → Prop) : PyVal → Prop
  | .list l => P (.list l) ∧ ThroughoutAll P l
  | .dict l => P (.dict l) ∧ ThroughoutIn P l
  | .bool b => P (.bool b)
  | .int n => P (.int n)
  | .str s => P (.str s)
  | .date d => P (.date d)
  | .time t => P (.time t)
  | .datetime d => P (.datetime d)
  | .float f => P (.float f)
  | .none => P .none
termination_by structural v => v
@[inherit_doc Throughout]
def ThroughoutAll (P : PyVal → Prop) : List PyVal → Prop
  | [] => True
  | v :: r => Throughout P v ∧ ThroughoutAll P r
termination_by structural l => l
@[inherit_doc Throughout]
def ThroughoutIn (P : PyVal → Prop) : List PyPair → Prop
  | [] => True
  | p :: r => ThroughoutPair P p ∧ ThroughoutIn P r
termination_by structural l => l
@[inherit_doc Throughout]
def ThroughoutPair (P : PyVal → Prop) : PyPair → Prop
  | .mk _ v => Throughout P v
termination_by structural p => p
end

/-- no dict inside the value -/
def NoDict : PyVal → Prop := Throughout fun v => v.isDict = false

/-- no dict inside a list that is itself an element of a list, e.g. not `[[{...}]]` -/
def NoDictInListInList : PyVal → Prop :=
  Throughout fun v => ∀ l, v = .list l → ∀ m, .list m ∈ l → NoDict (.list m)

/-- `None` occurs nowhere inside the value -/
def NoNone : PyVal → Prop := Throughout fun v => v ≠ .none

/-- No `float` inside the value. -/
def NoFloat : PyVal → Prop := Throughout fun v => ∀ f, v ≠ .float f

/-- A scalar as Python can hold it: the fields of dates and times are in range, a float is given by its `repr()`.
`None` is no TOML value. -/
def Proper : PyVal → Prop
  | .date d => ValidDate d.year d.month d.day
  | .time t => ValidTime t.hour t.minute t.second t.micro
  | .datetime v => ValidDate v.date.year v.date.month v.date.day ∧ ValidTime v.time.hour v.time.minute v.time.second v.time.micro ∧
      ∀ o, v.tz = some o → ValidOffset o
  | .float s => FloatRepr s
  | .none => False
  | _ => True

/-- a Python value made of proper scalars, lists and dicts -/
def Writable : PyVal → Prop := Throughout Proper

/-- the container of a table or inline table -/
def dictCont : Item → Option Cont
  | .inline c _ _ => some c
  | .table tb => some tb.cont
  | _ => none

mutual
/-- The item holds exactly this Python value: a scalar is itself; the elements of an array or array of tables hold the
elements of the list; the keys of a table or inline table are the keys of the dict in the same order, and what `t[k]`
reads holds the value of `k`. -/
def Holds : PyVal → Item → Prop
  | .bool b, i => ∃ t, i = .bool b t
  | .int n, i => ∃ t r, i = .integer n t r
  | .str s, i => ∃ ty o t, i = .str ty s o t
  | .date d, i => ∃ t r, i = .date d t r
  | .time d, i => ∃ t r, i = .time d t r
  | .datetime d, i => ∃ t r, i = .datetime d t r
  | .float f, i => ∃ t r, i = .float f t r
  | .none, _ => False
  | .list l, i => (∃ gs t m, i = .array gs t m ∧ HoldsAll l (printed gs)) ∨
      ∃ ts t n p, i = .aot ts t n p ∧ HoldsAll l (ts.map Item.table)
  | .dict l, i => ∃ c, dictCont i = some c ∧ c.dict = l.map PyPair.key ∧ HoldsIn l c
termination_by structural v => v
@[inherit_doc Holds]
def HoldsAll : List PyVal → List Item → Prop
  | [], is => is = []
  | v :: r, is => ∃ i is', is = i :: is' ∧ Holds v i ∧ HoldsAll r is'
termination_by structural l => l
@[inherit_doc Holds]
def HoldsIn : List PyPair → Cont → Prop
  | [], _ => True
  | p :: r, c => HoldsPair p c ∧ HoldsIn r c
termination_by structural l => l
@[inherit_doc Holds]
def HoldsPair : PyPair → Cont → Prop
  | .mk k v, c => ∃ i, c.item k = .ok (.inl i) ∧ Holds v i
termination_by structural p => p
end

end Tomlkit.Spec
