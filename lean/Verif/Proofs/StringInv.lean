import Verif.Proofs.Basic
/-! What the string parser can return. -/
namespace Tomlkit

theorem strLoop_isStr (delim : StrType) : ∀ (n : Nat) (v : Str) (e : Bool) (st st' : St) (it : Item),
    strLoop delim n v e st = .ok it st' → ∃ v o, it = .str delim v o {} := by
  intro n
  induction n with
  | zero => intro v e st st' it h; simp [strLoop] at h
  | succ n ih =>
    intro v e st st' it h
    rw [strLoop] at h
    simp only [getSt_bind] at h
    split at h
    · simp at h
    · split at h
      · split at h
        · simp only [extract_bind, skip_bind] at h
          split at h
          · exact ih _ _ _ _ _ h
          · split at h
            · simp at h; exact ⟨_, _, h.1.symm⟩
            · split at h
              · simp at h
              · simp at h; exact ⟨_, _, h.1.symm⟩
        · simp only [extract_bind] at h
          rw [P.bind_ok] at h
          obtain ⟨_, _, _, h⟩ := h
          simp at h; exact ⟨_, _, h.1.symm⟩
      · split at h
        · rw [P.bind_ok] at h
          obtain ⟨_, _, _, h⟩ := h
          exact ih _ _ _ _ _ h
        · split at h
          · rw [P.bind_ok] at h
            obtain ⟨_, _, _, h⟩ := h
            exact ih _ _ _ _ _ h
          · rw [P.bind_ok] at h
            obtain ⟨_, _, _, h⟩ := h
            exact ih _ _ _ _ _ h

theorem strBody_isStr {delim : StrType} {st st' : St} {it : Item} (h : strBody delim st = .ok it st') :
    ∃ v o, it = .str delim v o {} := by
  unfold strBody at h
  simp only [mark_bind] at h
  rw [P.bind_ok] at h
  obtain ⟨_, _, _, h⟩ := h
  exact strLoop_isStr _ _ _ _ _ _ _ h

theorem parseString_isStr {delim : StrType} {st st' : St} {it : Item} (h : parseString delim st = .ok it st') :
    ∃ ty v o, it = .str ty v o {} ∧ (ty = delim ∨ ty = delim.toggle) := by
  unfold parseString at h
  simp only [getSt_bind] at h
  split at h
  · simp at h
  · rw [P.bind_ok] at h
    obtain ⟨_, s1, _, h⟩ := h
    simp only [getSt_bind] at h
    split at h
    · rw [P.bind_ok] at h
      obtain ⟨_, s2, _, h⟩ := h
      simp only [getSt_bind] at h
      split at h
      · simp at h; exact ⟨_, _, _, h.1.symm, .inl rfl⟩
      · rw [P.bind_ok] at h
        obtain ⟨_, _, _, h⟩ := h
        obtain ⟨v, o, h⟩ := strBody_isStr h
        exact ⟨_, v, o, h, .inr rfl⟩
    · obtain ⟨v, o, h⟩ := strBody_isStr h
      exact ⟨_, v, o, h, .inl rfl⟩

theorem restoring_isStr {delim : StrType} {st st' : St} {it : Item} (h : restoring (parseString delim) st = .ok it st') :
    ∃ ty v o, it = .str ty v o {} ∧ (ty = delim ∨ ty = delim.toggle) := by
  unfold restoring at h
  split at h
  · rename_i a s' h1
    injection h with h _; subst h
    exact parseString_isStr h1
  · cases h

end Tomlkit
