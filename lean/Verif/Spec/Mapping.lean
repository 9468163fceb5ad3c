import Verif.Spec.Containers
import Verif.Model.Mapping
/-!
# What the mapping claims (C44) mean

The methods of Python's `dict`, on a list of items in insertion order.
-/
namespace Tomlkit.Spec
open Tomlkit

/-- `d.get(k)` -/
def Dict.get (d : Dict) (k : Str) : Option PyVal := (d.find? fun p => p.1 == k).map Prod.snd

/-- `d.update(l)` -/
def Dict.update (d : Dict) (l : List (Str × PyVal)) : Dict := l.foldl (fun d p => d.set p.1 p.2) d

/-- The value a read gives: what is returned stands for the Python value `v`. -/
def IsVal (r : Item ⊕ List Nat) (v : PyVal) : Prop := ∃ i, r = .inl i ∧ i.pyValue = v

/-- The methods: `d.pop(k)`, `d.pop(k, default)`, `d.setdefault(k, v)`, `d.update(l)`, `d.clear()`. -/
inductive MapOp
  | base (o : DictOp)
  | pop (k : Str) (dflt : Bool)
  | setdefault (k : Str) (v : Item)
  | update (l : List (Str × Item))
  | clear

/-- no operand is a table or array of tables -/
def MapOp.Plain : MapOp → Prop
  | .base o => o.Plain
  | .setdefault _ v => v.isTableLike = false
  | .update l => ∀ p ∈ l, p.2.isTableLike = false
  | _ => True

/-- the method on a Python `dict` -/
def MapOp.onDict (d : Dict) : MapOp → Except Err Dict
  | .base o => o.onDict d
  | .pop k dflt => if d.has k then .ok (d.del k) else if dflt then .ok d else .error .nonExistentKey
  | .setdefault k v => if d.has k then .ok d else .ok (d.set k v.pyValue)
  | .update l => .ok (d.update (l.map fun p => (p.1, p.2.pyValue)))
  | .clear => .ok []

/-- the method on a document or table -/
def MapOp.run (h : Holder) (c : Cont) : MapOp → Except Err Cont
  | .base o => o.op.run h c
  | .pop k dflt => (c.pop h k dflt).map Prod.fst
  | .setdefault k v => (c.setdefault h k v).map Prod.fst
  | .update l => c.update h l
  | .clear => c.clear h

/-- a sequence of methods on a `dict`; one that raises leaves it as it is -/
def Dict.afterMap (d : Dict) : List MapOp → Dict
  | [] => d
  | o :: r => match o.onDict d with
    | .ok d' => Dict.afterMap d' r
    | .error _ => Dict.afterMap d r

/-- the same sequence on a document or table -/
def contAfterMap (h : Holder) (c : Cont) : List MapOp → Cont
  | [] => c
  | o :: r => match o.run h c with
    | .ok c' => contAfterMap h c' r
    | .error _ => contAfterMap h c r

end Tomlkit.Spec
