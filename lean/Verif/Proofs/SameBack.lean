import Verif.Proofs.Wrap
import Verif.Spec.Readable
/-!
# Equal dicts, in the other direction
-/
namespace Tomlkit
open _root_.Spec Tomlkit.Spec

/-- distinct names among as many names are all of them -/
theorem perm_of_subset : ∀ {a b : List Str}, a.Nodup → a.length = b.length → (∀ x ∈ a, x ∈ b) → a.Perm b
  | [], b, _, hl, _ => by
    have : b = [] := List.length_eq_zero_iff.1 hl.symm
    subst this; exact List.Perm.refl _
  | x :: a, b, hd, hl, hs => by
    rw [List.nodup_cons] at hd
    have hx : x ∈ b := hs x (by simp)
    have hp := List.perm_cons_erase hx
    refine (List.Perm.cons x (perm_of_subset hd.2 ?_ ?_)).trans hp.symm
    · rw [List.length_erase_of_mem hx]
      simp only [List.length_cons] at hl
      omega
    · intro y hy
      have hne : y ≠ x := by rintro rfl; exact hd.1 hy
      exact (List.mem_erase_of_ne hne).2 (hs y (by simp [hy]))

/-- every item of the equal dict comes from an item -/
theorem same_back {l l' : List PyPair} (hd : (l.map PyPair.key).Nodup) (h : Same (.dict l) (.dict l')) :
    (l'.map PyPair.key).Nodup ∧ ∀ k w, .mk k w ∈ l' → ∃ v, .mk k v ∈ l ∧ Same v w := by
  unfold Same at h
  obtain ⟨_, h0, hl, hin⟩ := h
  cases h0
  have hp : (l.map PyPair.key).Perm (l'.map PyPair.key) := by
    refine perm_of_subset hd (by simp [hl]) ?_
    intro k hk
    obtain ⟨⟨k', v⟩, hm, rfl⟩ := List.mem_map.1 hk
    obtain ⟨w, hw, _⟩ := sameIn_mem hin hm
    exact List.mem_map.2 ⟨_, hw, rfl⟩
  have hd' := hp.nodup_iff.1 hd
  refine ⟨hd', fun k w hw => ?_⟩
  have hk : k ∈ l.map PyPair.key := hp.mem_iff.2 (List.mem_map.2 ⟨_, hw, rfl⟩)
  obtain ⟨⟨k', v⟩, hm, rfl⟩ := List.mem_map.1 hk
  obtain ⟨w', hw', hs⟩ := sameIn_mem hin hm
  rw [PyPair.key_mk] at hw
  rw [pair_unique hd' hw hw']
  exact ⟨v, hm, hs⟩

theorem keysOnce_mem {l : List PyPair} (h : KeysOnceIn l) {k : Str} {v : PyVal} (hm : .mk k v ∈ l) : KeysOnce v := by
  induction l with
  | nil => cases hm
  | cons p r ih =>
    unfold KeysOnceIn at h
    rcases List.mem_cons.1 hm with rfl | hm
    · have := h.1; unfold KeysOncePair at this; exact this
    · exact ih h.2 hm

theorem keysOnceAll_mem {l : List PyVal} (h : KeysOnceAll l) {v : PyVal} (hm : v ∈ l) : KeysOnce v := by
  induction l with
  | nil => cases hm
  | cons p r ih =>
    unfold KeysOnceAll at h
    rcases List.mem_cons.1 hm with rfl | hm
    · exact h.1
    · exact ih h.2 hm

theorem sameAll_back {l l' : List PyVal} (h : SameAll l l') {w : PyVal} (hm : w ∈ l') : ∃ v ∈ l, Same v w := by
  induction l generalizing l' with
  | nil => unfold SameAll at h; subst h; cases hm
  | cons x r ih =>
    unfold SameAll at h
    obtain ⟨x', r', rfl, h1, h2⟩ := h
    rcases List.mem_cons.1 hm with rfl | hm
    · exact ⟨x, by simp, h1⟩
    · obtain ⟨v, hv, hs⟩ := ih h2 hm
      exact ⟨v, by simp [hv], hs⟩

theorem sameAll_mem {l l' : List PyVal} (h : SameAll l l') {v : PyVal} (hm : v ∈ l) : ∃ w ∈ l', Same v w := by
  induction l generalizing l' with
  | nil => cases hm
  | cons x r ih =>
    unfold SameAll at h
    obtain ⟨x', r', rfl, h1, h2⟩ := h
    rcases List.mem_cons.1 hm with rfl | hm
    · exact ⟨x', by simp, h1⟩
    · obtain ⟨v, hv, hs⟩ := ih h2 hm
      exact ⟨v, by simp [hv], hs⟩

/-- "`[[...]]` headers only" holds for equal values -/
theorem onlyArrays_same : ∀ (v : PyVal) {w : PyVal}, Same v w → OnlyArrays w → OnlyArrays v
  | .bool _, w, h, h1 | .int _, w, h, h1 | .str _, w, h, h1 | .date _, w, h, h1 | .time _, w, h, h1 | .datetime _, w, h, h1
  | .float _, w, h, h1 | .none, w, h, h1 => by unfold Same at h; subst h; exact h1
  | .list l, w, h, h1 => by
    unfold Same at h
    obtain ⟨l', rfl, h2⟩ := h
    unfold OnlyArrays at h1 ⊢
    refine ⟨?_, ?_⟩
    · rintro rfl
      unfold SameAll at h2; exact h1.1 h2
    · intro x hx
      obtain ⟨w, hw, hs⟩ := sameAll_mem h2 hx
      rw [← same_isDict hs]; exact h1.2 w hw
  | .dict [], w, h, h1 => by
    unfold Same at h
    obtain ⟨l', rfl, hl, _⟩ := h
    have : l' = [] := List.length_eq_zero_iff.1 hl.symm
    subst this; exact h1
  | .dict [.mk k v], w, h, h1 => by
    unfold Same at h
    obtain ⟨l', rfl, hl, hs⟩ := h
    obtain ⟨w', hw', hs'⟩ := sameIn_mem hs (k := k) (v := v) (by simp)
    obtain ⟨x, rfl⟩ := List.length_eq_one_iff.1 hl.symm
    rw [List.mem_singleton] at hw'
    subst hw'
    unfold OnlyArrays at h1 ⊢
    exact onlyArrays_same v hs' h1
  | .dict (p :: q :: r), w, h, h1 => by
    unfold Same at h
    obtain ⟨l', rfl, hl, _⟩ := h
    rcases l' with _ | ⟨⟨a, b⟩, _ | ⟨c, l'⟩⟩
    · simp at hl
    · simp at hl
    · simp only [OnlyArrays] at h1

theorem throughoutIn_of {P : PyVal → Prop} {l : List PyPair} (h : ∀ k v, .mk k v ∈ l → Throughout P v) : ThroughoutIn P l := by
  induction l with
  | nil => unfold ThroughoutIn; trivial
  | cons p r ih =>
    unfold ThroughoutIn
    refine ⟨?_, ih fun k v hm => h k v (by simp [hm])⟩
    rcases p with ⟨k, v⟩
    unfold ThroughoutPair
    exact h k v (by simp)

theorem throughoutAll_of {P : PyVal → Prop} {l : List PyVal} (h : ∀ v ∈ l, Throughout P v) : ThroughoutAll P l := by
  induction l with
  | nil => unfold ThroughoutAll; trivial
  | cons p r ih =>
    unfold ThroughoutAll
    exact ⟨h p (by simp), ih fun v hm => h v (by simp [hm])⟩

theorem sizeOf_pair_lt {l : List PyPair} {k : Str} {v : PyVal} (h : .mk k v ∈ l) : sizeOf v < sizeOf (PyVal.dict l) := by
  have h1 := List.sizeOf_lt_of_mem h
  have h2 : sizeOf v < sizeOf (PyPair.mk k v) := by simp; omega
  have h3 : sizeOf l < sizeOf (PyVal.dict l) := by simp
  omega

theorem sizeOf_elem_lt {l : List PyVal} {v : PyVal} (h : v ∈ l) : sizeOf v < sizeOf (PyVal.list l) := by
  have h1 := List.sizeOf_lt_of_mem h
  have h3 : sizeOf l < sizeOf (PyVal.list l) := by simp
  omega

theorem noSuch_same (a : Str) : ∀ (n : Nat) (v w : PyVal), sizeOf v < n → KeysOnce v → Same v w → NoSuchItem a v → NoSuchItem a w
  | 0, _, _, hn, _, _, _ => absurd hn (by omega)
  | n + 1, v, w, hn, hk, hs, h => by
    unfold NoSuchItem at h ⊢
    rcases v with _ | _ | _ | _ | _ | _ | _ | _ | l | l
    case list =>
      have hs' := hs
      unfold Same at hs'
      obtain ⟨l', rfl, hs'⟩ := hs'
      rw [Throughout.eq_def] at h ⊢
      unfold KeysOnce at hk
      refine ⟨(fun m hm => by cases hm), throughoutAll_of fun w hw => ?_⟩
      obtain ⟨v, hv, hvw⟩ := sameAll_back hs' hw
      have := sizeOf_elem_lt hv
      exact noSuch_same a n v w (by omega) (keysOnceAll_mem hk hv) hvw (throughoutAll_mem h.2 hv)
    case dict =>
      have hs' := hs
      unfold Same at hs'
      obtain ⟨l', rfl, _, _⟩ := hs'
      unfold KeysOnce at hk
      obtain ⟨_, hb⟩ := same_back hk.1 hs
      rw [Throughout.eq_def] at h ⊢
      refine ⟨?_, throughoutIn_of fun k w hw => ?_⟩
      · intro m hm d hd ho
        cases hm
        obtain ⟨v, hv, hvw⟩ := hb _ _ hd
        have hvd := same_isDict hvw
        rcases v with _ | _ | _ | _ | _ | _ | _ | _ | v | v <;> first | (cases hvd; done) | skip
        exact h.1 l rfl v hv (onlyArrays_same _ hvw ho)
      · obtain ⟨v, hv, hvw⟩ := hb k w hw
        have := sizeOf_pair_lt hv
        exact noSuch_same a n v w (by omega) (keysOnce_mem hk.2 hv) hvw (throughoutIn_mem h.2 hv)
    all_goals (unfold Same at hs; subst hs; exact h)

theorem unconfused_same {l l' : List PyPair} (hk : KeysOnce (.dict l)) (hs : Same (.dict l) (.dict l')) (h : Unconfused l) : Unconfused l' := by
  intro a x r hm y hy
  unfold KeysOnce at hk
  obtain ⟨v, hv, hvw⟩ := (same_back hk.1 hs).2 _ _ hm
  have hkv := keysOnce_mem hk.2 hv
  rcases v with _ | _ | _ | _ | _ | _ | _ | _ | m | m <;> (unfold Same at hvw; try (cases hvw; done))
  · obtain ⟨_, h0, hall⟩ := hvw
    cases h0
    unfold KeysOnce at hkv
    rcases m with _ | ⟨x0, m⟩
    · unfold SameAll at hall; cases hall
    · unfold SameAll at hall
      obtain ⟨_, _, h0, _, hall⟩ := hall
      cases h0
      obtain ⟨y0, hy0, hs0⟩ := sameAll_back hall hy
      exact noSuch_same a _ y0 y (Nat.lt_succ_self _) (keysOnceAll_mem hkv (by simp [hy0])) hs0 (h a x0 m hv y0 hy0)
  · obtain ⟨_, h0, _⟩ := hvw; cases h0

end Tomlkit
