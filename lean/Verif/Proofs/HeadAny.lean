import Verif.Proofs.Inside
import Verif.Proofs.LineEdit
/-!
# A header with any text behind it
-/
namespace Tomlkit
open _root_.Spec Tomlkit.Spec

theorem Tl.any {W cm nl R : Str} (h : Tl W cm nl R) (hn : hasNl (tlTrail W cm nl) = true) (X : Str) : Tl W cm nl X := by
  obtain ⟨hW, h⟩ := h
  have hw : hasNl W = false := by
    rcases hx : hasNl W with _ | _
    · rfl
    · have : (10 : Nat) ∈ W := by simpa [hasNl] using hx
      have := hW 10 this
      cases this
  refine ⟨hW, ?_⟩
  rcases h with ⟨rfl, ⟨rfl, _⟩ | rfl⟩ | ⟨s, rfl, hs, h⟩
  · simp only [tlTrail, if_true, List.append_nil] at hn
    rw [hw] at hn; cases hn
  · exact .inl ⟨rfl, .inr rfl⟩
  · refine .inr ⟨s, rfl, hs, ?_⟩
    rw [tlTrail, if_neg (by simp)] at hn
    rcases h with ⟨rfl, _⟩ | rfl | ⟨rfl, _⟩ | rfl
    · cases hn
    · exact .inr (.inl rfl)
    · cases hn
    · exact .inr (.inr (.inr rfl))

/-- the parts of a header that is not one of an array -/
theorem header_parts {R e : Str} {a : List Key} {h : Header} {s : St} (hh : parseHeader ⟨R, e, a, []⟩ = .ok h s) (hl : s.loss = []) (hA : h.isAot = false) :
    ∃ r key w e2 a2, R = 91 :: r ∧ r.head? ≠ some 91 ∧ r ≠ [] ∧ headerKey ⟨r, e ++ [91], a, []⟩ = .ok key ⟨93 :: w, e2, a2, []⟩ ∧
      ((key.setSep []).parts.any fun p => (strip p.key).contains 32 && p.t == .bare) = false ∧
      h.indent = e ∧ h.key = key.setSep [] ∧ ∃ s3, parseCommentTrail true ⟨w, e2 ++ [93], a2, []⟩ = .ok (h.cws, h.comment, h.trail) s3 ∧ s3.rest = s.rest := by
  have hk := mono_headerKey
  have hc := mono_parseCommentTrail true
  have hn := fun b l => mono_note b l
  unfold Tomlkit.parseHeader at hh
  rw [getSt_bind] at hh
  by_cases h91 : (St.mk R e a []).cur = 91
  · rw [if_neg (by simpa using h91)] at hh
    obtain ⟨r, hr⟩ := cur_cons h91 (by decide)
    have hr : R = 91 :: r := hr
    subst hr
    rw [extract_bind] at hh
    obtain ⟨_, s2, h1, hh⟩ := bind_ok hh
    cases h1
    rw [getSt_bind] at hh
    split at hh
    · cases hh
    rename_i hne
    have hne : r ≠ [] := fun h0 => hne (by rw [h0]; rfl)
    dsimp only at hh
    have hcur : (St.mk r (e ++ [91]) a []).cur ≠ 91 := by
      intro h2
      rw [if_pos (by simpa using h2)] at hh
      obtain ⟨_, s3, h3, hh⟩ := bind_ok hh
      rw [getSt_bind] at hh
      split at hh
      · cases hh
      obtain ⟨k, s4, h4, hh⟩ := bind_ok hh
      rw [getSt_bind] at hh
      split at hh
      · cases hh
      split at hh
      · cases hh
      split at hh
      · cases hh
      obtain ⟨_, s5, h5, hh⟩ := bind_ok hh
      rw [getSt_bind] at hh
      obtain ⟨_, s6, h6, hh⟩ := bind_ok hh
      rw [if_pos (by simpa using h2)] at hh
      obtain ⟨_, s7, h7, hh⟩ := bind_ok hh
      obtain ⟨⟨x1, x2, x3⟩, s8, h8, hh⟩ := bind_ok hh
      dsimp only at hh
      rw [getSt_bind] at hh
      obtain ⟨_, s9, h9, hh⟩ := bind_ok hh
      cases hh
      have : decide ((St.mk r (e ++ [91]) a []).cur = 91) = false := hA
      rw [decide_eq_true h2] at this
      cases this
    rw [if_neg (by simpa using hcur)] at hh
    rw [getSt_bind] at hh
    split at hh
    · cases hh
    obtain ⟨key, s4, h4, hh⟩ := bind_ok hh
    rw [getSt_bind] at hh
    split at hh
    · cases hh
    split at hh
    · cases hh
    rename_i h93
    split at hh
    · cases hh
    rename_i hany
    obtain ⟨_, s5, h5, hh⟩ := bind_ok hh
    rw [getSt_bind] at hh
    obtain ⟨_, s6, h6, hh⟩ := bind_ok hh
    have hfalse : decide ((St.mk r (e ++ [91]) a []).cur = 91) = false := decide_eq_false hcur
    rw [hfalse] at h6 hh
    cases h6
    rw [if_neg (by decide)] at hh
    obtain ⟨⟨x1, x2, x3⟩, s8, h8, hh⟩ := bind_ok hh
    dsimp only at hh
    rw [getSt_bind] at hh
    obtain ⟨_, s9, h9, hh⟩ := bind_ok hh
    have h9' : s9.rest = s8.rest ∧ s8.loss <+: s9.loss := by
      unfold note at h9
      cases h9
      split
      · exact ⟨rfl, List.prefix_append _ _⟩
      · exact ⟨rfl, List.prefix_refl _⟩
    cases hh
    obtain ⟨w, hw⟩ := cur_cons (by simpa using h93 : s4.cur = 93) (by decide)
    obtain ⟨r4, e4, a4, l4⟩ := s4
    have hw : r4 = 93 :: w := hw
    subst hw
    cases h5
    have hl4 : l4 = [] := loss_nil ((hc _ _ _ h8).2.trans h9'.2) hl
    subst hl4
    refine ⟨r, key, w, e4, a4, rfl, ?_, hne, h4, by simpa using hany, rfl, rfl, s8, h8, h9'.1.symm⟩
    intro h0
    rcases r with _ | ⟨x, r⟩
    · cases h0
    · cases h0; exact hcur rfl
  · rw [if_pos (by simpa using h91)] at hh
    cases hh

theorem step_run (c : Chr) (r e : Str) (a : List Key) (l : List Loss) : step ⟨c :: r, e, a, l⟩ = .ok () ⟨r, e ++ [c], a, l⟩ := rfl

theorem header_make {r e w e2 : Str} {a : List Key} {key : Key} {cws cm tr X e4 : Str} (h91 : r.head? ≠ some 91) (hne : r ≠ [])
    (hk : headerKey ⟨r, e ++ [91], a, []⟩ = .ok key ⟨93 :: w, e2, a, []⟩)
    (hany : ((key.setSep []).parts.any fun p => (strip p.key).contains 32 && p.t == .bare) = false)
    (hc : parseCommentTrail true ⟨w, e2 ++ [93], a, []⟩ = .ok (cws, cm, tr) ⟨X, e4, a, []⟩) (hnl : hasNl tr = true) :
    parseHeader ⟨91 :: r, e, a, []⟩ = .ok ⟨e, false, key.setSep [], cws, cm, tr⟩ ⟨X, e4, a, []⟩ ∧ peekInner ⟨91 :: r, e, a, []⟩ = .ok (false, key) ⟨93 :: w, e2, a, []⟩ := by
  have hcur : (St.mk r (e ++ [91]) a []).cur ≠ 91 := by
    rcases r with _ | ⟨x, r⟩
    · exact absurd rfl hne
    · intro h0
      have h0 : x = 91 := h0
      subst h0
      exact h91 rfl
  have hend : ¬ (St.mk r (e ++ [91]) a []).atEnd = true := fun h => hne (atEnd_iff.1 h)
  constructor
  · unfold Tomlkit.parseHeader
    rw [getSt_bind, if_neg (by simp [St.cur]), extract_bind]
    refine (bind_step (step_run _ _ _ _ _)).trans ?_
    rw [getSt_bind, if_neg hend]
    dsimp only
    rw [decide_eq_false hcur, if_neg (by decide), getSt_bind, if_neg (by simp)]
    refine (bind_step hk).trans ?_
    rw [getSt_bind, if_neg (by simp [St.atEnd]), if_neg (by simp [St.cur]), if_neg (by rw [hany]; decide)]
    refine (bind_step (step_run _ _ _ _ _)).trans ?_
    rw [getSt_bind]
    refine (bind_step (note_no _ _)).trans ?_
    rw [if_neg (by decide)]
    refine (bind_step hc).trans ?_
    dsimp only
    rw [getSt_bind, hnl]
    rfl
  · unfold peekInner
    rw [getSt_bind, if_neg (by simp [St.cur])]
    refine (bind_step (step_run _ _ _ _ _)).trans ?_
    rw [getSt_bind, if_neg hcur]
    exact (bind_step hk).trans rfl

/-- **A header that ends with a newline, with any text behind it.** -/
theorem header_any {R e : Str} {a : List Key} {h : Header} {s : St} (hh : parseHeader ⟨R, e, a, []⟩ = .ok h s) (hl : s.loss = []) (hA : h.isAot = false)
    (hnl : hasNl h.trail = true) (X : Str) : Meet ⟨R, e, a, []⟩ (h.line ++ X) ∧ ∃ e', parseHeader ⟨h.line ++ X, e, a, []⟩ = .ok h ⟨X, e', a, []⟩ := by
  obtain ⟨r, key, w, e2, a2, rfl, h91, hne, hk, hany, hi, hkey, s3, hc, hs3⟩ := header_parts hh hl hA
  obtain ⟨u, hu⟩ := (mono_headerKey _ _ _ hk).1
  have hu : u ++ 93 :: w = r := hu
  subst hu
  have hkk : ∀ w' a', headerKey ⟨u ++ 93 :: w', e ++ [91], a', []⟩ = .ok key ⟨93 :: w', e2, a', []⟩ := by
    intro w' a'
    have hk' : headerKey ⟨(u ++ [93]) ++ w, e ++ [91], a, []⟩ = .ok key ⟨93 :: w, e2, a2, []⟩ := by
      rw [List.append_assoc]; exact hk
    obtain ⟨w1, g1, g2⟩ := Rel.headerKey (t := w) (t' := w') (a' := a') (l := []) (u := u ++ [93]) (e := e ++ [91]) (a := a) key _ hk' rfl (by simp) (.inr (by simp))
    have : w1 = [93] := by
      have : [93] ++ w = w1 ++ w := g1
      exact (List.append_cancel_right this).symm
    subst this
    rw [List.append_assoc] at g2
    exact g2
  have hne' : ∀ w', u ++ 93 :: w' ≠ [] := fun w' => by simp
  have hhd : ∀ w', (u ++ 93 :: w').head? ≠ some 91 := by
    intro w'
    rcases u with _ | ⟨x, u⟩
    · simp
    · exact h91
  obtain ⟨W, nl, ht, hw, h1, h2⟩ := tl_is hc
  have hcw : ∀ a', ∃ e', parseCommentTrail true ⟨W ++ (h.comment ++ (nl ++ X)), e2 ++ [93], a', []⟩ = .ok (h.cws, h.comment, h.trail) ⟨X, e', a', []⟩ := by
    intro a'
    rw [h2] at hnl
    obtain ⟨e', g⟩ := (ht.any hnl X).run (e2 ++ [93]) a' []
    exact ⟨e', by rw [g, ← h1, ← h2]⟩
  have hx : h = ⟨e, false, key.setSep [], h.cws, h.comment, h.trail⟩ := by
    obtain ⟨i, b, k, c, m, t⟩ := h
    simp only at hi hA hkey
    subst hi hA hkey
    rfl
  have hmake : ∀ a', ∃ e', parseHeader ⟨91 :: (u ++ 93 :: (W ++ (h.comment ++ (nl ++ X)))), e, a', []⟩ = .ok h ⟨X, e', a', []⟩ ∧
      peekInner ⟨91 :: (u ++ 93 :: (W ++ (h.comment ++ (nl ++ X)))), e, a', []⟩ = .ok (false, key) ⟨93 :: (W ++ (h.comment ++ (nl ++ X))), e2, a', []⟩ := by
    intro a'
    obtain ⟨e', g⟩ := hcw a'
    have := header_make (hhd _) (hne' _) (hkk _ a') hany g hnl
    rw [← hx] at this
    exact ⟨e', this⟩
  have hline : 91 :: (u ++ 93 :: (W ++ (h.comment ++ (nl ++ X)))) = h.line ++ X := by
    obtain ⟨e', g, _⟩ := hmake a
    exact (keeps_fact (parseHeader_keeps _) g rfl).line
  rw [← hline]
  refine ⟨⟨rfl, fun a' pk hpk => ?_⟩, ?_⟩
  · obtain ⟨e', _, g⟩ := hmake a'
    have g0 : peekInner ⟨91 :: (u ++ 93 :: w), e, a', []⟩ = .ok (false, key) ⟨93 :: w, e2, a', []⟩ := by
      have hcur : (St.mk (u ++ 93 :: w) (e ++ [91]) a' []).cur ≠ 91 := by
        intro h0
        rcases u with _ | ⟨x, u⟩
        · cases h0
        · have h0 : x = 91 := h0
          subst h0
          exact h91 rfl
      unfold peekInner
      rw [getSt_bind, if_neg (by simp [St.cur])]
      refine (bind_step (step_run _ _ _ _ _)).trans ?_
      rw [getSt_bind, if_neg hcur]
      exact (bind_step (hkk w a')).trans rfl
    have hpk : peekTable ⟨91 :: (u ++ 93 :: w), e, a', []⟩ = .ok pk ⟨91 :: (u ++ 93 :: w), e, a', []⟩ := hpk
    rw [peek_ok g0] at hpk
    cases hpk
    exact peek_ok g
  · obtain ⟨e', g, _⟩ := hmake a
    exact ⟨e', g⟩

end Tomlkit
