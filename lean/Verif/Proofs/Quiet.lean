import Verif.Proofs.KeepDoc
import Verif.Spec.Calm
/-!
# Texts for which the ghost log of the parser stays empty
-/
namespace Tomlkit

/-- the log is not touched -/
def Mute {α : Type} (m : P α) : Prop := ∀ st, m.wp (fun _ s => s.loss = st.loss) (fun _ s => s.loss = st.loss) st

section
variable {α β : Type}

theorem Mute.bind {m : P β} {f : β → P α} (h : Mute m) (hf : ∀ b, Mute (f b)) : Mute (m >>= f) := by
  intro st
  refine wp_bind (wp_mono (h st) ?_ fun _ _ h => h)
  intro b s hs
  exact wp_mono (hf b s) (fun _ _ h => h.trans hs) fun _ _ h => h.trans hs

theorem mute_pure (a : α) : Mute (pure a : P α) := fun _ => rfl
theorem mute_getSt : Mute getSt := fun _ => rfl
theorem mute_mark : Mute mark := fun _ => rfl
theorem mute_extract : Mute extract := fun _ => rfl
theorem mute_skip (p : Chr → Bool) : Mute (skip p) := fun _ => rfl
theorem mute_stepN (n : Nat) : Mute (stepN n) := fun _ => rfl
theorem mute_fail (k : PKind) : Mute (fail k : P α) := fun _ => rfl
theorem mute_raise (e : Err) : Mute (raise e : P α) := fun _ => rfl
theorem mute_step : Mute step := by
  intro st
  unfold P.wp step
  cases hr : st.rest <;> rfl
theorem mute_stepE : Mute stepE := by
  intro st
  unfold P.wp stepE
  rcases hr : st.rest with _ | ⟨a, _ | ⟨b, r⟩⟩ <;> rfl
theorem mute_lift (x : Except Err α) : Mute (lift x) := by
  intro st
  unfold P.wp lift
  cases x <;> rfl
theorem mute_wrapErr (x : Except Err α) : Mute (wrapErr x) := by
  intro st
  unfold P.wp wrapErr
  rcases x with e | a
  · cases e <;> rfl
  · rfl
theorem Mute.ite {c : Prop} [Decidable c] {m m' : P α} (h : Mute m) (h' : Mute m') : Mute (if c then m else m') := by
  split
  · exact h
  · exact h'
theorem Mute.restoring {m : P α} (h : Mute m) : Mute (restoring m) := by
  intro st
  refine wp_restoring (wp_mono (h st) (fun _ _ h => h) ?_)
  intro e s hs
  exact hs
theorem Mute.peeking {m : P α} (h : Mute m) : Mute (peeking m) := by
  intro st
  exact wp_peeking (wp_mono (h st) (fun _ _ _ => rfl) fun _ _ _ => rfl)
end

/-- unfolds binds and conditionals -/
macro "mute" : tactic => `(tactic| repeat' with_reducible first
  | exact mute_pure _ | exact mute_getSt | exact mute_mark | exact mute_extract | exact mute_skip _ | exact mute_stepN _
  | exact mute_fail _ | exact mute_raise _ | exact mute_step | exact mute_stepE | exact mute_lift _ | exact mute_wrapErr _
  | refine Mute.bind ?_ fun _ => ?_ | refine Mute.ite ?_ ?_ | assumption | split | (dsimp only; split))

theorem mute_parseTrail : Mute parseTrail := by unfold parseTrail; mute

theorem mute_parseCommentTrail (b : Bool) : Mute (parseCommentTrail b) := by
  have := mute_parseTrail
  unfold parseCommentTrail
  mute

theorem mute_parseEscapedChar (b : Bool) : Mute (parseEscapedChar b) := by
  unfold parseEscapedChar
  mute

theorem mute_strLoop (d : StrType) : ∀ (n : Nat) (v : Str) (e : Bool), Mute (strLoop d n v e) := by
  intro n
  induction n with
  | zero => intro v e; exact mute_raise _
  | succ n ih =>
    intro v e
    have h1 := mute_parseEscapedChar d.isMultiline
    unfold strLoop
    have ih : ∀ v e, Mute (strLoop d n v e) := ih
    repeat' with_reducible first | exact ih _ _ | mute

theorem mute_strBody (d : StrType) : Mute (strBody d) := by
  unfold strBody skipFirstNl
  repeat' with_reducible first | exact mute_strLoop _ _ _ _ | mute

theorem mute_parseString (d : StrType) : Mute (parseString d) := by
  unfold parseString
  repeat' with_reducible first | exact mute_strBody _ | mute

theorem mute_parseKey : ∀ n : Nat, Mute (parseKey n) := by
  intro n
  induction n with
  | zero => exact mute_raise _
  | succ n ih =>
    unfold parseKey
    repeat' with_reducible first | exact mute_parseString _ | mute

theorem mute_parseKeyHere : Mute parseKeyHere := by
  unfold parseKeyHere
  exact Mute.bind mute_getSt fun _ => mute_parseKey _

theorem mute_headerKey : Mute headerKey := by
  intro st
  have h := mute_parseKeyHere st
  unfold P.wp headerKey at *
  rcases hk : parseKeyHere st with ⟨a, s⟩ | ⟨e, s⟩ <;> rw [hk] at h
  · exact h
  · cases e
    case parse k r => cases k <;> exact h
    all_goals exact h

theorem mute_parseSep : Mute parseSep := by unfold parseSep; mute

theorem mute_peekTable : Mute peekTable := by
  unfold peekTable
  refine Mute.peeking ?_
  repeat' with_reducible first | exact mute_headerKey | mute

theorem mute_dateErr {α : Type} (k : PKind) (e : PyErr) : Mute (dateErr k e : P α) := by
  cases e
  all_goals first | exact mute_fail _ | exact mute_raise _

theorem mute_parseDigits : Mute parseDigits := by
  unfold parseDigits
  repeat' with_reducible first | exact mute_dateErr _ _ | mute

theorem mute_parseBool (w : Str) (b : Bool) : Mute (parseBool w b) := by
  intro st
  unfold P.wp parseBool
  by_cases h : w.isPrefixOf st.rest = true
  · rw [if_pos h]
  · rw [if_neg h]

theorem mute_addWs (c : Cont) (raw : Str) : Mute (addWs c raw) := by
  unfold addWs
  mute

/-! ### texts -/

/-- the first newline comes after a backslash -/
def NlEsc (u : Str) : Prop := ∀ a b, u = a ++ 10 :: b → 92 ∈ a

theorem NlEsc.append {u v : Str} (hu : NlEsc u) (hv : NlEsc v) : NlEsc (u ++ v) := by
  intro a b h
  rcases List.append_eq_append_iff.1 h with ⟨w, h1, h2⟩ | ⟨w, h1, h2⟩
  · rw [h1]
    exact List.mem_append_right _ (hv w b h2)
  · rcases w with _ | ⟨c, w⟩
    · have := hv [] b (by simpa using h2.symm)
      cases this
    · simp only [List.cons_append, List.cons.injEq] at h2
      obtain ⟨rfl, h2⟩ := h2
      exact hu a w h1

theorem NlEsc.none {u : Str} (h : 10 ∉ u) : NlEsc u := by
  intro a b hu
  exact absurd (by rw [hu]; simp) h

theorem NlEsc.esc {u : Str} : NlEsc (92 :: u) := by
  intro a b hu
  rcases a with _ | ⟨c, a⟩
  · simp at hu
  · simp only [List.cons_append, List.cons.injEq] at hu
    rw [← hu.1]; simp

/-! ### keys -/

theorem strLoop_nl (d : StrType) (hd : d.isMultiline = false) : ∀ (n : Nat) (v : Str) (e : Bool) (st : St),
    Keeps (strLoop d n v e) (fun _ s => ∃ u, Ate st s u ∧ (e = false → NlEsc u)) st := by
  intro n
  induction n with
  | zero => intro v e st; exact (Tr.refl st).raise
  | succ n ih =>
    intro v e st
    have h := Tr.refl st
    unfold Keeps strLoop
    refine wp_bind (wp_getSt (wp_ite (fun _ => h.fail) fun hr => wp_ite (fun hu => ?_) fun hu => wp_ite (fun he => ?_) fun he =>
      wp_ite (fun hb => ?_) fun hb => ?_))
    · rw [if_neg (by rw [hd]; decide)]
      simp only [Bool.and_eq_true, decide_eq_true_eq] at hu
      refine wp_bind (wp_extract (wp_bind (h.step fun s h hr _ _ => ?_)))
      refine h.ret fun _ => ⟨_, ate_cur hu.2 (unit_ne_zero d) hr, fun _ => .none ?_⟩
      cases d <;> decide
    · simp only [Bool.and_eq_true] at he
      refine wp_bind (h.call (parseEscapedChar_keeps _ _) fun a s h => ?_)
      refine h.last (ih _ _ _) ?_
      rintro i s' ⟨_, u, hu, _⟩ ⟨u', hu', _⟩
      exact ⟨_, ate_trans hu hu', fun h0 => by rw [h0] at he; cases he.2⟩
    · simp only [Bool.and_eq_true, decide_eq_true_eq] at hb
      refine wp_bind (h.stepE fun s h hr _ _ _ => ?_)
      refine h.last (ih _ _ _) ?_
      rintro i s' _ ⟨u', hu', _⟩
      exact ⟨_, ate_trans (ate_cur hb.2 (by decide) hr) hu', fun _ => .esc⟩
    · refine wp_bind (h.stepE fun s h hr' _ _ hlen => ?_)
      refine h.last (ih _ _ _) ?_
      rintro i s' _ ⟨u', hu', h1⟩
      refine ⟨_, ate_trans (ate_drop hr') hu', fun h0 => .append (.none ?_) (h1 h0)⟩
      rcases hs : st.rest with _ | ⟨c, r⟩
      · rw [hs] at hlen; simp at hlen
      · have hcur : st.cur = c := by unfold St.cur; rw [hs]
        subst h0
        simp only [Bool.not_false, Bool.true_and, hcur] at hr
        intro hmem
        have : c = 10 := by
          rw [List.take_succ_cons, List.take_zero, List.mem_singleton] at hmem
          exact hmem.symm
        rw [this] at hr
        apply hr
        unfold refusedInString
        rw [hd]; decide

theorem parseString_nl (d : StrType) (hd : d.isMultiline = false) (st : St) : Keeps (parseString d)
    (fun i s => ∃ u, Ate st s u ∧ ∀ ty v o t, i = .str ty v o t → ty.isMultiline = false → NlEsc u) st := by
  have h := Tr.refl st
  have hbody : ∀ (d : StrType) (st : St), Keeps (strBody d) (fun i s => ∃ u, Ate st s u ∧
      (d.isMultiline = false → NlEsc u) ∧ ∃ x o, i = .str d x o {}) st := by
    intro d st
    cases hd : d.isMultiline
    · have h := Tr.refl st
      unfold Keeps
      refine wp_mono (Q := fun i s => Tr st s ((∃ u, Ate st s u ∧ NlEsc u) ∧ (∃ x o, i = .str d x o {} ∧ Ate st s (o ++ d.value)))) ?_ ?_ fun _ _ h => h
      · refine wp_mono (wp_and (Q := fun i s => Tr st s (∃ u, Ate st s u ∧ NlEsc u)) (E := ErrK st) ?_ (strBody_keeps d st)) ?_ fun _ _ h => h
        · unfold strBody skipFirstNl
          refine wp_bind (h.mark fun s h hr he _ => ?_)
          rw [hd]
          refine wp_bind (wp_pure (wp_bind (wp_getSt (h.last (strLoop_nl d hd _ _ _ s) ?_))))
          rintro i s' _ ⟨u, hu, h1⟩
          exact ⟨u, by unfold Ate at *; rw [← hr]; exact hu, h1 rfl⟩
        · rintro i s ⟨h1, h2⟩
          exact ⟨h1.loss, h1.suf, fun hl => ⟨h1.fact hl, h2.fact hl⟩⟩
      · rintro i s h
        exact h.imp fun ⟨⟨u, hu, h1⟩, x, o, hi, _⟩ => ⟨u, hu, fun _ => h1, x, o, hi⟩
    · refine wp_mono (strBody_keeps d st) ?_ fun _ _ h => h
      rintro i s h
      exact h.imp fun ⟨x, o, hi, h1⟩ => ⟨_, h1, fun h0 => (by cases h0), x, o, hi⟩
  have hunit : ∀ d : StrType, NlEsc [d.unit] := by
    intro d; refine .none ?_; cases d <;> decide
  unfold Keeps parseString
  refine wp_bind (wp_getSt (wp_ite (fun _ => h.fail) fun hc => ?_))
  simp only [ne_eq, Decidable.not_not] at hc
  refine wp_bind (h.stepE fun s h hr _ _ _ => ?_)
  have h1 := ate_cur hc (unit_ne_zero d) hr
  refine wp_bind (wp_getSt (wp_ite (fun hc2 => ?_) fun _ => ?_))
  · refine wp_bind (h.step fun s2 h hr2 _ _ => ?_)
    have h2 := ate_trans h1 (ate_cur hc2 (unit_ne_zero d) hr2)
    refine wp_bind (wp_getSt (wp_ite (fun _ => ?_) fun hc3 => ?_))
    · exact h.ret fun _ => ⟨_, h2, fun _ _ _ _ _ _ => (hunit d).append (hunit d)⟩
    simp only [ne_eq, Decidable.not_not] at hc3
    refine wp_bind (h.stepE fun s3 h hr3 _ _ _ => ?_)
    have h3 := ate_trans h2 (ate_cur hc3 (unit_ne_zero d) hr3)
    refine h.last (hbody _ _) ?_
    rintro i s' _ ⟨u, hu, _, x, o, rfl⟩
    refine ⟨_, ate_trans h3 hu, ?_⟩
    rintro ty v o' t hi hm
    cases hi
    exfalso
    cases d <;> first | (cases hd; done) | (cases hm; done)
  · refine h.last (hbody _ _) ?_
    rintro i s' _ ⟨u, hu, h2, x, o, rfl⟩
    exact ⟨_, ate_trans h1 hu, fun _ _ _ _ _ _ => (hunit d).append (h2 hd)⟩

theorem takeWhile_nl {p : Chr → Bool} (h : p 10 = false) (s : Str) : 10 ∉ s.takeWhile p := by
  intro hm
  have := List.all_takeWhile (l := s) (p := p)
  rw [List.all_eq_true] at this
  rw [this 10 hm] at h; cases h

theorem parseKey_nl : ∀ (n : Nat) (st : St), Keeps (parseKey n) (fun _ s => ∃ u, Ate st s u ∧ NlEsc u) st := by
  intro n
  induction n with
  | zero => intro st; exact (Tr.refl st).raise
  | succ n ih =>
    intro st
    have h := Tr.refl st
    have hrest : ∀ (key : SKey) (s : St) (F : Prop), Tr st s F → (F → ∃ u, Ate st s u ∧ NlEsc u) → P.wp (do
        let st ← getSt
        if st.cur = 46 then
          step
          let k ← parseKey n
          return (Key.single key).concat k
        else return .single key) (fun k s => Tr st s (∃ u, Ate st s u ∧ NlEsc u)) (ErrK st) s := by
      intro key s F h hu
      refine wp_bind (wp_getSt (wp_ite (fun hc => ?_) fun _ => h.ret fun hf => hu hf))
      refine wp_bind (h.step fun s2 h hr _ _ => ?_)
      refine wp_bind (h.call (ih s2) fun k s3 h => ?_)
      refine h.ret ?_
      rintro ⟨hf, u, h2, hk⟩
      obtain ⟨u0, h0, h1⟩ := hu hf
      refine ⟨_, ate_trans (ate_trans h0 (ate_cur hc (by decide) hr)) h2, (h1.append (.none (by decide))).append hk⟩
    unfold Keeps parseKey
    refine wp_bind (h.mark fun s1 h hr1 he1 _ => ?_)
    refine wp_bind (h.skip fun s2 h hr2 he2 _ => ?_)
    have h2 : Ate st s2 (s1.rest.takeWhile isSpaces) := by
      have := ate_skip hr2
      unfold Ate at *; rw [← hr1]; exact this
    have hn2 : NlEsc (s1.rest.takeWhile isSpaces) := .none (takeWhile_nl (by decide) _)
    refine wp_bind (wp_getSt (wp_ite (fun hc => ?_) fun _ => ?_))
    · refine wp_bind (wp_extract ?_)
      refine wp_bind ((h.call (parseString_nl _ (by split <;> rfl) _) fun v s3 h => ?_))
      dsimp only
      split
      · rename_i ty x o t
        refine wp_ite (fun _ => h.fail) fun hm => ?_
        refine wp_bind (h.mark fun s4 h hr4 he4 _ => ?_)
        refine wp_bind (h.skip fun s5 h hr5 he5 _ => ?_)
        refine wp_bind (wp_extract ?_)
        refine hrest _ _ _ h ?_
        rintro ⟨_, u, hu, h3⟩
        have h5 : Ate s3 s5 (s4.rest.takeWhile isSpaces) := by
          have := ate_skip hr5
          unfold Ate at *; rw [← hr4]; exact this
        exact ⟨_, ate_trans (ate_trans h2 hu) h5, (hn2.append (h3 _ _ _ _ rfl (by simpa using hm))).append
          (.none (takeWhile_nl (by decide) _))⟩
      · exact h.raise
    · refine wp_bind (h.skip fun s3 h hr3 he3 _ => ?_)
      refine wp_bind (wp_extract (wp_ite (fun _ => h.fail) fun _ => wp_ite (fun _ => h.fail) fun _ => ?_))
      refine hrest _ _ _ h ?_
      intro _
      exact ⟨_, ate_trans h2 (ate_skip hr3), hn2.append (.none (takeWhile_nl (by decide) _))⟩

theorem headerKey_nl (st : St) : Keeps headerKey (fun _ s => ∃ u, Ate st s u ∧ NlEsc u) st := by
  have h : Keeps parseKeyHere (fun _ s => ∃ u, Ate st s u ∧ NlEsc u) st := wp_bind (wp_getSt (parseKey_nl _ st))
  unfold Keeps P.wp headerKey at *
  rcases hk : parseKeyHere st with ⟨a, s⟩ | ⟨e, s⟩ <;> rw [hk] at h
  · exact h
  · cases e
    case parse k r => cases k <;> exact h
    all_goals exact h

end Tomlkit
