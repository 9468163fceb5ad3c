import Verif.Spec.FlatEdit
/-!
# What the claims about edits above the tables (C18, C33, C42) mean

In a TOML text the key/value lines of the document stand above its first table.
-/
namespace Tomlkit.Spec
open Tomlkit _root_.Spec

/-- the entries of the document above its first table -/
def linePart (c : Cont) : List Entry := c.body.takeWhile fun e => !e.v.isTableLike

/-- its first table and what comes below -/
def tablePart (c : Cont) : List Entry := c.body.dropWhile fun e => !e.v.isTableLike

/-- the key an edit is about -/
def Edit.key? : Edit → Option Str
  | .set k _ _ | .add k _ _ | .remove k | .note k _ => some k
  | .comment _ | .nl => none

/-- the edit is about a line above the tables: about a key that is not the name of a table. (`doc.add(comment(…))` and `doc.add(nl())` put
their line behind the last table, and are not considered.) -/
def Edit.Above (c : Cont) (e : Edit) : Prop := ∃ k, e.key? = some k ∧ ∀ x ∈ tablePart c, x.key.map SKey.key ≠ some k

end Tomlkit.Spec
