import Verif.Spec.Containers
import Verif.Spec.Union
/-!
# What the claim about `doc.value`, `doc == other`, `str(doc)` (C47) means
-/
namespace Tomlkit.Spec
open Tomlkit

/-- Parts of one table do not collide: what two entries under one key both write at a place is a dict in both. An entry
with a key holds no white space. -/
structure Separate (c : Cont) : Prop where
  apart : ∀ i j k v w, HoldsAt c i k v → HoldsAt c j k w → i ≠ j → ∀ p s s', Written p v s → Written p w s' →
    s = .dict ∧ s' = .dict
  data : ∀ i k v, HoldsAt c i k v → v.isWhitespace = false

end Tomlkit.Spec
