import Verif.Model.Convert
import Verif.Spec.Lists
/-!
# What the claim about merged tables (C32) means

A place in nested Python data is a path of keys and list positions. What is there is a scalar, a list of some length, or a dict.
-/
namespace Tomlkit.Spec
open Tomlkit

/-- one step into nested data -/
inductive Hop
  | key (k : Str)
  | idx (i : Nat)
deriving DecidableEq

/-- what there is at a place: a value that is neither a list nor a dict, a list of a length, a dict -/
inductive Shape
  | scalar (v : PyVal)
  | list (n : Nat)
  | dict

/-- the shape of a value -/
def shapeOf : PyVal → Shape
  | .dict _ => .dict
  | .list l => .list l.length
  | v => .scalar v

/-- the value at a path: `v[k0][k1]…` -/
def valAt : List Hop → PyVal → Option PyVal
  | [], v => some v
  | .key k :: p, .dict l => (pyGet k l).bind (valAt p)
  | .idx i :: p, .list l => l[i]?.bind (valAt p)
  | _ :: _, _ => none

/-- the shape at a path -/
def look (p : List Hop) (v : PyVal) : Option Shape := (valAt p v).map shapeOf

/-- Merging `v2` into `v1` leaves the place alone: `v2` has nothing there, and nowhere on the way there is something in both that is not
a dict in both. -/
def LeftAlone (p : List Hop) (v1 v2 : PyVal) : Prop :=
  valAt p v2 = none ∧ ∀ q r, p = q ++ r → ∀ w1 w2, valAt q v1 = some w1 → valAt q v2 = some w2 → w1.isDict = true ∧ w2.isDict = true

/-- the entries of a table or inline table -/
def entriesOf : Item → List Entry
  | .table tb => tb.cont.body
  | .inline c _ _ => c.body
  | _ => []

/-- the elements of an array (without white space, comments and removed elements) or the tables of an array of tables -/
def elementsOf : Item → List Item
  | .array gs _ _ => (gs.flatMap fun g => match g with | .noval .. => [] | .val _ v _ _ => [v]).filter Item.isData
  | .aot ts _ _ _ => ts.map Item.table
  | _ => []

/-- the shape an item stands for -/
def itemShape : Item → Shape
  | .table _ | .inline .. => .dict
  | .array gs t ml => .list (elementsOf (.array gs t ml)).length
  | .aot ts _ _ _ => .list ts.length
  | .integer v _ _ => .scalar (.int v)
  | .float txt _ _ => .scalar (.float txt)
  | .bool b _ => .scalar (.bool b)
  | .datetime v _ _ => .scalar (.datetime v)
  | .date v _ _ => .scalar (.date v)
  | .time v _ _ => .scalar (.time v)
  | .str _ v _ _ => .scalar (.str v)
  | .ws .. | .comment _ | .null _ => .scalar .none

/-- Somewhere in the item, in any of the entries of any of the tables on the way, this is written at the path. -/
def Written : List Hop → Item → Shape → Prop
  | [], i, s => itemShape i = s
  | .key k :: p, i, s => ∃ key v, Entry.mk (some key) v ∈ entriesOf i ∧ key.key = k ∧ Written p v s
  | .idx n :: p, i, s => ∃ v, (elementsOf i)[n]? = some v ∧ Written p v s

/-- the same for the entries of a document -/
def WrittenIn (c : Cont) (k : Str) (p : List Hop) (s : Shape) : Prop :=
  ∃ key v, Entry.mk (some key) v ∈ c.body ∧ key.key = k ∧ Written p v s

end Tomlkit.Spec
