import Verif.Spec.Convert
/-!
# Which mappings can be read back (C24)

`dumps` writes a dict with one item that is again a dict or a list of dicts without a header of its own: `{"x": {"y": [{}, {}]}}` is
written `[[x.y]]` twice. The parser puts the tables together again, except in one place: below the second and later
elements of a list of dicts under a key `a` of the document, it mistakes an item `a` written without a header for the list itself.
-/
namespace Tomlkit.Spec
open Tomlkit _root_.Spec

/-- Written as `[[...]]` headers only: a non-empty list of dicts, or a dict with exactly one item, whose value is so written. -/
def OnlyArrays : PyVal → Prop
  | .list l => l ≠ [] ∧ ∀ x ∈ l, x.isDict = true
  | .dict [.mk _ v] => OnlyArrays v
  | _ => False

/-- Nowhere inside the value has a dict an item `a` that is a dict written as `[[...]]` headers only. -/
def NoSuchItem (a : Str) : PyVal → Prop :=
  Throughout fun v => ∀ l, v = .dict l → ∀ d, PyPair.mk a (.dict d) ∈ l → ¬ OnlyArrays (.dict d)

/-- The items of the document avoid the one place where the parser goes wrong. -/
def Unconfused (l : List PyPair) : Prop :=
  ∀ a x r, PyPair.mk a (.list (x :: r)) ∈ l → ∀ y ∈ r, NoSuchItem a y

end Tomlkit.Spec
