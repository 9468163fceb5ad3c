import Verif.Model.Convert
/-!
# Specification: what pairs with dotted keys denote

`a.b = 1`, `c = 2`, `a.d.e = 3` denote `{"a": {"b": 1, "d": {"e": 3}}, "c": 2}`: a path of names leads to each value, a name comes where it is
written first, and no path goes through or ends at the end of another one.
-/
namespace Tomlkit.Spec
open Tomlkit

/-- the pairs whose paths start with `k`, without it -/
def under (k : Str) (L : List (List Str × PyVal)) : List (List Str × PyVal) :=
  L.filterMap fun q => match q.1 with
    | a :: p => if a = k then some (p, q.2) else none
    | [] => none

/-- the pairs whose paths do not start with `k` -/
def beside (k : Str) (L : List (List Str × PyVal)) : List (List Str × PyVal) := L.filter fun q => q.1.head? ≠ some k

/-- The dictionary that pairs of paths and values denote. There is none if a path is empty or leads through the end of another one. -/
inductive Nest : List (List Str × PyVal) → List PyPair → Prop
  | nil : Nest [] []
  /-- a name alone: no other path starts with it -/
  | value (k v L l) (hk : ∀ q ∈ L, q.1.head? ≠ some k) (h : Nest L l) : Nest (([k], v) :: L) (.mk k v :: l)
  /-- a name that leads to a dictionary: it takes all the paths that start with this name -/
  | table (k p v L l1 l2) (hp : p ≠ []) (h1 : Nest ((p, v) :: under k L) l1) (h2 : Nest (beside k L) l2) :
      Nest ((k :: p, v) :: L) (.mk k (.dict l1) :: l2)

end Tomlkit.Spec
