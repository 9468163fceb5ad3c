import Verif.Model.Copies
import Verif.Spec.Containers
/-!
# What the claim about copies (C34) means
-/
namespace Tomlkit.Spec
open Tomlkit

/-- Two containers with the same entries, the same index, the same keys in the same order, and in the same mode. They
render the same text and read the same. (The only other field, `_table_keys`, is neither rendered nor read.) -/
structure Alike (c c' : Cont) : Prop where
  body : c'.body = c.body
  map : c'.map = c.map
  dict : c'.dict = c.dict
  parsed : c'.parsed = c.parsed

/-- Both raise the same exception, or both return, and then alike. -/
def AlikeResults : Except Err Cont → Except Err Cont → Prop
  | .ok c, .ok c' => Alike c c'
  | .error e, .error e' => e = e'
  | _, _ => False

/-- a super table: a table that stands for the common beginning of longer names, as `tomlkit.table(is_super_table=True)`
makes it -/
def IsSuperTable : Item → Prop
  | .table tb => tb.isSuper = true
  | _ => False

/-- the operation does not put a super table into the document itself -/
def NoSuperAtTop : List Step × Op → Prop
  | ([], .set _ v) | ([], .append _ v) | ([], .appendKey _ v) => ¬ IsSuperTable v
  | _ => True

/-! ### deep copies -/

mutual
/-- The same item with the keys of all its tables in the order of their entries; nothing else is changed. -/
def _root_.Tomlkit.Item.rekey : Item → Item
  | .array gs t ml => .array (rekeyGroups gs) t ml
  | .inline c t new => .inline c.rekey t new
  | .table tb => .table tb.rekey
  | .aot ts t n p => .aot (rekeyTables ts) t n p
  | i => i
termination_by structural i => i
@[inherit_doc Item.rekey]
def _root_.Tomlkit.rekeyGroups : List AGroup → List AGroup
  | [] => []
  | g :: r => g.rekey :: rekeyGroups r
termination_by structural g => g
@[inherit_doc Item.rekey]
def _root_.Tomlkit.AGroup.rekey : AGroup → AGroup
  | .noval i c m => .noval i c m
  | .val i v c m => .val i v.rekey c m
termination_by structural g => g
@[inherit_doc Item.rekey]
def _root_.Tomlkit.Tbl.rekey : Tbl → Tbl
  | .mk c t a s n d => .mk c.rekey t a s n d
termination_by structural t => t
/-- The same container with its keys, and those of all tables inside, in the order of the entries. -/
def _root_.Tomlkit.Cont.rekey : Cont → Cont
  | .mk b m _ p tk => .mk (rekeyEntries b) m (dictOfBody b) p tk
termination_by structural c => c
@[inherit_doc Item.rekey]
def _root_.Tomlkit.rekeyEntries : List Entry → List Entry
  | [] => []
  | e :: r => e.rekey :: rekeyEntries r
termination_by structural e => e
@[inherit_doc Item.rekey]
def _root_.Tomlkit.Entry.rekey : Entry → Entry
  | .mk k v => .mk k v.rekey
termination_by structural e => e
@[inherit_doc Item.rekey]
def _root_.Tomlkit.rekeyTables : List Tbl → List Tbl
  | [] => []
  | t :: r => t.rekey :: rekeyTables r
termination_by structural t => t
end

/-- the tables of an array of tables are set apart: where a table with keys comes before, there is a line break -/
def SetApart : List Tbl → Prop
  | a :: b :: r => (a.cont.dict ≠ [] → hasNl b.trivia.indent = true) ∧ SetApart (b :: r)
  | _ => True

mutual
/-- What a deep copy can reproduce: no inline table is marked as new, the parts of an array are grouped as grouping them
again would do, an array of tables was parsed or its tables are set apart, and it has no decoration of its own. -/
def _root_.Tomlkit.Item.Copyable : Item → Prop
  | .array gs _ _ => groupValues (groupItems gs) = gs ∧ copyableGroups gs
  | .inline c _ new => new = false ∧ c.Copyable
  | .table tb => tb.Copyable
  | .aot ts t _ p => t = { trail := [] } ∧ (p = true ∨ SetApart ts) ∧ copyableTables ts
  | .null t => t = { trail := [] }
  | _ => True
termination_by structural i => i
@[inherit_doc Item.Copyable]
def _root_.Tomlkit.copyableGroups : List AGroup → Prop
  | [] => True
  | g :: r => g.Copyable ∧ copyableGroups r
termination_by structural g => g
@[inherit_doc Item.Copyable]
def _root_.Tomlkit.AGroup.Copyable : AGroup → Prop
  | .noval .. => True
  | .val _ v _ _ => v.Copyable
termination_by structural g => g
@[inherit_doc Item.Copyable]
def _root_.Tomlkit.Tbl.Copyable : Tbl → Prop
  | .mk c _ _ _ _ _ => c.Copyable
termination_by structural t => t
@[inherit_doc Item.Copyable]
def _root_.Tomlkit.Cont.Copyable : Cont → Prop
  | .mk b _ _ _ _ => copyableEntries b
termination_by structural c => c
@[inherit_doc Item.Copyable]
def _root_.Tomlkit.copyableEntries : List Entry → Prop
  | [] => True
  | e :: r => e.Copyable ∧ copyableEntries r
termination_by structural e => e
@[inherit_doc Item.Copyable]
def _root_.Tomlkit.Entry.Copyable : Entry → Prop
  | .mk _ v => v.Copyable
termination_by structural e => e
@[inherit_doc Item.Copyable]
def _root_.Tomlkit.copyableTables : List Tbl → Prop
  | [] => True
  | t :: r => t.Copyable ∧ copyableTables r
termination_by structural t => t
end

end Tomlkit.Spec
