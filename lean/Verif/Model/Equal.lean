import Verif.Model.Convert
/-!
# `doc == other`

Python's `==` on plain values, and `Container.__eq__`.
-/
namespace Tomlkit

/-- a list or dict equals no other value -/
def pyEqLeaf (a : PyVal) (r : Bool) : Bool :=
  match a with
  | .list _ | .dict _ => false
  | _ => r

mutual
/-- Python's `==` on plain values: lists element by element, dicts by keys and values in any order; `leaf` is `==` on
values that are neither (numbers, strings, dates, ...). -/
def pyEq (leaf : PyVal → PyVal → Bool) (a : PyVal) : PyVal → Bool
  | .list m => match a with
    | .list l => pyEqAll leaf l m
    | _ => false
  | .dict m => match a with
    | .dict l => (l.all fun p => (m.map PyPair.key).contains p.key) && pyEqIn leaf l m
    | _ => false
  | .none => pyEqLeaf a (leaf a .none)
  | .bool b => pyEqLeaf a (leaf a (.bool b))
  | .int n => pyEqLeaf a (leaf a (.int n))
  | .float t => pyEqLeaf a (leaf a (.float t))
  | .str s => pyEqLeaf a (leaf a (.str s))
  | .datetime d => pyEqLeaf a (leaf a (.datetime d))
  | .date d => pyEqLeaf a (leaf a (.date d))
  | .time d => pyEqLeaf a (leaf a (.time d))
termination_by structural v => v
/-- lists, element by element -/
def pyEqAll (leaf : PyVal → PyVal → Bool) (l : List PyVal) : List PyVal → Bool
  | [] => l.isEmpty
  | v :: r => match l with
    | [] => false
    | w :: l' => pyEq leaf w v && pyEqAll leaf l' r
termination_by structural m => m
/-- every pair of the other dict is in this one -/
def pyEqIn (leaf : PyVal → PyVal → Bool) (l : List PyPair) : List PyPair → Bool
  | [] => true
  | p :: r => pyEqPair leaf l p && pyEqIn leaf l r
termination_by structural m => m
@[inherit_doc pyEqIn]
def pyEqPair (leaf : PyVal → PyVal → Bool) (l : List PyPair) : PyPair → Bool
  | .mk k v => match pyGet k l with
    | none => false
    | some w => pyEq leaf w v
termination_by structural p => p
end

/-- `doc == other` for a `dict` of plain values, container.py:726-730: `self.value == other`. Simplification: arrays, and tables in
arrays of tables, stay items in `self.value`; their own `==` (of `list`, of `collections.abc.Mapping`, and this one) is that of their
values. -/
def Cont.eq (leaf : PyVal → PyVal → Bool) (c : Cont) (other : List PyPair) : Bool := pyEq leaf (.dict c.pyItems) (.dict other)

end Tomlkit
