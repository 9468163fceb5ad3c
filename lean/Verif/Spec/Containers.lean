import Verif.Model.Convert
import Verif.Model.Ops
/-!
# What the container claims (C13, C37) mean
-/
namespace Tomlkit.Spec
open Tomlkit

/-- position `i` of the container holds an entry for the key `k` with value `v` -/
def HoldsAt (c : Cont) (i : Nat) (k : Str) (v : Item) : Prop :=
  ∃ key, c.body[i]? = some (.mk (some key) v) ∧ key.key = k

/-- Lookup and rendering agree: the index (`_map`) gives for every key exactly the positions of its entries in the
body that is rendered, the key list (the shadow `dict`) has every key once, and a key with several entries stands for
several parts of a table. -/
structure Consistent (c : Cont) : Prop where
  /-- a cached position points to an entry with that key -/
  cached : ∀ k is, mapGet k c.map = some is → ∀ i ∈ is, ∃ v, HoldsAt c i k v
  /-- every entry with a key is reachable -/
  reachable : ∀ i k v, HoldsAt c i k v → ∃ is, mapGet k c.map = some is ∧ i ∈ is
  /-- no key is in the index twice, no position twice -/
  once : (c.map.map Prod.fst).Nodup ∧ ∀ k is, mapGet k c.map = some is → is ≠ [] ∧ is.Nodup
  /-- the keys of the `dict` are the keys of the entries, each once -/
  keys : c.dict.Nodup ∧ ∀ k, k ∈ c.dict ↔ ∃ i v, HoldsAt c i k v
  /-- two entries for one key are parts of a table -/
  parts : ∀ i j k v w, HoldsAt c i k v → HoldsAt c j k w → i ≠ j → v.isTable = true ∧ w.isTable = true

mutual
/-- every container inside the item has the property -/
def EveryItem (W : Cont → Prop) : Item → Prop
  | .array gs _ _ => EveryGroups W gs
  | .inline c _ _ => Every W c
  | .table tb => EveryTbl W tb
  | .aot ts _ _ _ => EveryTables W ts
  | _ => True
termination_by structural i => i
@[inherit_doc EveryItem]
def EveryGroups (W : Cont → Prop) : List AGroup → Prop
  | [] => True
  | g :: r => EveryGroup W g ∧ EveryGroups W r
termination_by structural g => g
@[inherit_doc EveryItem]
def EveryGroup (W : Cont → Prop) : AGroup → Prop
  | .noval .. => True
  | .val _ v _ _ => EveryItem W v
termination_by structural g => g
@[inherit_doc EveryItem]
def EveryTbl (W : Cont → Prop) : Tbl → Prop
  | .mk c _ _ _ _ _ => Every W c
termination_by structural t => t
/-- the container and every container inside it have the property -/
def Every (W : Cont → Prop) : Cont → Prop
  | .mk b m d p tk => W (.mk b m d p tk) ∧ EveryEntries W b
termination_by structural c => c
@[inherit_doc EveryItem]
def EveryEntries (W : Cont → Prop) : List Entry → Prop
  | [] => True
  | e :: r => EveryEntry W e ∧ EveryEntries W r
termination_by structural e => e
@[inherit_doc EveryItem]
def EveryEntry (W : Cont → Prop) : Entry → Prop
  | .mk _ v => EveryItem W v
termination_by structural e => e
@[inherit_doc EveryItem]
def EveryTables (W : Cont → Prop) : List Tbl → Prop
  | [] => True
  | t :: r => EveryTbl W t ∧ EveryTables W r
termination_by structural t => t
end

end Tomlkit.Spec

/-!
# What the dictionary claims (C12) mean
-/
namespace Tomlkit.Spec
open Tomlkit

/-- What `d[k]` reads: the value, or the values of the parts of a table written in several places; `none` means that the
key is not there. -/
def reads (c : Cont) (k : Str) : Option (List PyVal) :=
  (mapGet k c.map).map fun is => is.filterMap fun i => (c.body[i]?).map fun e => e.v.pyValue

/-- A Python `dict`: its items in insertion order. -/
abbrev Dict := List (Str × PyVal)
/-- `k in d` -/
def Dict.has (d : Dict) (k : Str) : Bool := d.any fun p => p.1 == k
/-- `d[k] = v` -/
def Dict.set (d : Dict) (k : Str) (v : PyVal) : Dict :=
  if d.has k then d.map fun p => if p.1 = k then (k, v) else p else d ++ [(k, v)]
/-- `del d[k]`, for a key that is there -/
def Dict.del (d : Dict) (k : Str) : Dict := d.filter fun p => !(p.1 == k)

/-- Reading the container is reading the dictionary: the same keys in the same order with the same values. -/
def Shows (c : Cont) (d : Dict) : Prop :=
  c.dict = d.map Prod.fst ∧ ∀ k, reads c k = (d.find? fun p => p.1 == k).map fun p => [p.2]

/-- no value is a table or an array of tables -/
def Flat (c : Cont) : Prop := ∀ e ∈ c.body, e.v.isTableLike = false

end Tomlkit.Spec

namespace Tomlkit.Spec
open Tomlkit

/-- The operations of C12: `d[k] = v`, `d.append(k, v)` or `d.add(k, v)`, `d.add(comment)`, `del d[k]`. -/
inductive DictOp
  | set (k : Str) (v : Item)
  | append (k : Str) (v : Item)
  | add (v : Item)
  | remove (k : Str)

/-- the operation of the library -/
def DictOp.op : DictOp → Op
  | .set k v => .set k v
  | .append k v => .append k v
  | .add v => .add v
  | .remove k => .remove k

/-- no operand is a table or array of tables -/
def DictOp.Plain : DictOp → Prop
  | .set _ v | .append _ v => v.isTableLike = false
  | .add v => v.isWhitespace = true ∨ v.isComment = true
  | .remove _ => True

/-- The same operation on a Python `dict`: a duplicate `append` and the deletion of a missing key raise; a comment or
blank line is no item. -/
def DictOp.onDict (d : Dict) : DictOp → Except Err Dict
  | .set k v => .ok (d.set k v.pyValue)
  | .append k v => if d.has k then .error .keyAlreadyPresent else .ok (d.set k v.pyValue)
  | .add _ => .ok d
  | .remove k => if d.has k then .ok (d.del k) else .error .nonExistentKey

/-- a sequence of operations on a `dict`; an operation that raises leaves it as it is -/
def Dict.after (d : Dict) : List DictOp → Dict
  | [] => d
  | o :: r => match o.onDict d with
    | .ok d' => Dict.after d' r
    | .error _ => Dict.after d r

/-- the same sequence on a document or table -/
def contAfter (h : Holder) (c : Cont) : List DictOp → Cont
  | [] => c
  | o :: r => match o.op.run h c with
    | .ok c' => contAfter h c' r
    | .error _ => contAfter h c r

end Tomlkit.Spec
