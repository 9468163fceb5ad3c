import Verif.Model.Convert
/-!
# The fuel of `unwrap`

More fuel changes no result.
-/
namespace Tomlkit

theorem unwrap_succ (n : Nat) :
    (∀ v w, Item.unwrap n v = .ok w → Item.unwrap (n + 1) v = .ok w) ∧
    (∀ l w, unwrapAll n l = .ok w → unwrapAll (n + 1) l = .ok w) ∧
    (∀ c w, Cont.unwrap n c = .ok w → Cont.unwrap (n + 1) c = .ok w) ∧
    (∀ c l w, unwrapKeys n c l = .ok w → unwrapKeys (n + 1) c l = .ok w) ∧
    (∀ c k w, unwrapKey n c k = .ok w → unwrapKey (n + 1) c k = .ok w) := by
  induction n with
  | zero =>
    refine ⟨fun v w h => ?_, fun l w h => ?_, fun c w h => ?_, fun c l w h => ?_, fun c k w h => ?_⟩
    · unfold Item.unwrap at h; cases h
    · unfold unwrapAll at h; cases h
    · unfold Cont.unwrap at h; cases h
    · unfold unwrapKeys at h; cases h
    · unfold unwrapKey at h; cases h
  | succ n ih =>
    obtain ⟨h1, h2, h3, h4, h5⟩ := ih
    have map1 : ∀ {α β : Type} {f : α → β} {x y : Except Err α} {w : β}, (∀ a, x = .ok a → y = .ok a) → x.map f = .ok w → y.map f = .ok w := by
      intro α β f x y w hxy hx
      rcases x with e | a
      · cases hx
      · rw [hxy a rfl]; exact hx
    refine ⟨fun v w h => ?_, fun l w h => ?_, fun c w h => ?_, fun c l w h => ?_, fun c k w h => ?_⟩
    · unfold Item.unwrap at h ⊢
      cases v with
      | array gs t ml => exact map1 (h2 _) h
      | inline c t nw => exact map1 (h3 _) h
      | table tb => exact map1 (h3 _) h
      | aot ts t nm p => exact map1 (h2 _) h
      | _ => exact h
    · rcases l with _ | ⟨i, r⟩
      · unfold unwrapAll at h ⊢; exact h
      · unfold unwrapAll at h ⊢
        rcases hv : Item.unwrap n i with e | v <;> rw [hv] at h
        · cases h
        · rw [h1 _ _ hv]
          exact map1 (h2 _) h
    · unfold Cont.unwrap at h ⊢
      exact h4 _ _ _ h
    · rcases l with _ | ⟨k, r⟩
      · unfold unwrapKeys at h ⊢; exact h
      · unfold unwrapKeys at h ⊢
        rcases hv : unwrapKey n c k with e | v <;> rw [hv] at h
        · cases h
        · rw [h5 _ _ _ hv]
          exact map1 (h4 _ _) h
    · unfold unwrapKey at h ⊢
      rcases hi : c.item k with e | v | is <;> rw [hi] at h
      · cases h
      · exact h1 _ _ h
      · dsimp only at h ⊢
        rcases hp : Cont.mkProxy (fuelFor c (.null {})) c is with e | p <;> rw [hp] at h
        · cases h
        · exact map1 (h3 _) h

theorem Item.unwrap_more {n m : Nat} {v : Item} {w : PyVal} (h : v.unwrap n = .ok w) (hm : n ≤ m) : v.unwrap m = .ok w := by
  induction hm with
  | refl => exact h
  | step _ ih => exact (unwrap_succ _).1 _ _ ih

theorem Cont.unwrap_more {n m : Nat} {c : Cont} {w : List PyPair} (h : c.unwrap n = .ok w) (hm : n ≤ m) : c.unwrap m = .ok w := by
  induction hm with
  | refl => exact h
  | step _ ih => exact (unwrap_succ _).2.2.1 _ _ ih

end Tomlkit
