import Verif.Proofs.Tables
/-!
# What the parser keeps of the text: the steps that read one token

`Keeps m R st`: when `m` succeeds from `st` and the ghost log is still empty, `R` holds.
-/
namespace Tomlkit

/-- after a failure -/
def ErrK (st : St) (_ : Err) (s : St) : Prop := st.loss <+: s.loss ∧ s.rest <:+ st.rest

/-- `s` is reached from `st`; when nothing was lost, `F` holds -/
structure Tr (st s : St) (F : Prop) : Prop where
  loss : st.loss <+: s.loss
  suf : s.rest <:+ st.rest
  fact : s.loss = [] → F

/-- the contract of a step -/
def Keeps {α : Type} (m : P α) (R : α → St → Prop) (st : St) : Prop := m.wp (fun a s => Tr st s (R a s)) (ErrK st) st

section
variable {α : Type} {st s : St} {F : Prop}

theorem Tr.refl (st : St) : Tr st st True := ⟨List.prefix_refl _, List.suffix_refl _, fun _ => trivial⟩

theorem Tr.imp {G : Prop} (h : Tr st s F) (hg : F → G) : Tr st s G := ⟨h.loss, h.suf, fun hl => hg (h.fact hl)⟩

theorem loss_nil {a b : List Loss} (h : a <+: b) (hb : b = []) : a = [] := by
  subst hb; exact List.prefix_nil.1 h

theorem Tr.trans {s' : St} {G : Prop} (h : Tr st s F) (h' : Tr s s' G) : Tr st s' (F ∧ G) :=
  ⟨h.loss.trans h'.loss, h'.suf.trans h.suf, fun hl => ⟨h.fact (loss_nil h'.loss hl), h'.fact hl⟩⟩

theorem Tr.err (h : Tr st s F) {e : Err} {s' : St} (he : ErrK s e s') : ErrK st e s' :=
  ⟨h.loss.trans he.1, he.2.trans h.suf⟩

theorem Tr.call (h : Tr st s F) {m : P α} {R : α → St → Prop} (hm : Keeps m R s) {Q : α → St → Prop}
    (hq : ∀ a s', Tr st s' (F ∧ R a s') → Q a s') : m.wp Q (ErrK st) s :=
  wp_mono hm (fun a s' hs => hq a s' (h.trans hs)) fun e s' he => h.err he

theorem Tr.last (h : Tr st s F) {m : P α} {R R' : α → St → Prop} (hm : Keeps m R s)
    (hq : ∀ a s', F → R a s' → R' a s') : m.wp (fun a s => Tr st s (R' a s)) (ErrK st) s :=
  h.call hm fun a s' hs => hs.imp fun hf => hq a s' hf.1 hf.2

theorem Tr.ret (h : Tr st s F) {a : α} {R : α → St → Prop} (hr : F → R a s) :
    (pure a : P α).wp (fun a s => Tr st s (R a s)) (ErrK st) s := h.imp hr

theorem Tr.fail (h : Tr st s F) {k : PKind} {Q : α → St → Prop} : (Tomlkit.fail k : P α).wp Q (ErrK st) s :=
  ⟨h.loss, h.suf⟩

theorem Tr.raise (h : Tr st s F) {e : Err} {Q : α → St → Prop} : (Tomlkit.raise e : P α).wp Q (ErrK st) s :=
  ⟨h.loss, h.suf⟩

theorem Tr.lift (h : Tr st s F) {x : Except Err α} {Q : α → St → Prop} (hq : ∀ a, x = .ok a → Q a s) :
    (Tomlkit.lift x).wp Q (ErrK st) s := wp_lift hq fun _ _ => ⟨h.loss, h.suf⟩

theorem Tr.wrapErr (h : Tr st s F) {x : Except Err α} {Q : α → St → Prop} (hq : ∀ a, x = .ok a → Q a s) :
    (Tomlkit.wrapErr x).wp Q (ErrK st) s := by
  unfold P.wp Tomlkit.wrapErr
  rcases x with e | a
  · cases e <;> exact ⟨h.loss, h.suf⟩
  · exact hq a rfl

/-- the same position with another marker -/
theorem Tr.same (h : Tr st s F) {e a} : Tr st ⟨s.rest, e, a, s.loss⟩ F := ⟨h.loss, h.suf, h.fact⟩

theorem Tr.mark (h : Tr st s F) {Q : Unit → St → Prop} {E}
    (hq : ∀ s', Tr st s' F → s'.rest = s.rest → s'.ext = [] → s'.aot = s.aot → Q () s') :
    Tomlkit.mark.wp Q E s := wp_mark (hq _ h.same rfl rfl rfl)

theorem Tr.to (h : Tr st s F) {r e a} (hr : r <:+ s.rest) : Tr st ⟨r, e, a, s.loss⟩ F :=
  ⟨h.loss, hr.trans h.suf, h.fact⟩

theorem Tr.skip (h : Tr st s F) {p : Chr → Bool} {Q : Unit → St → Prop} {E}
    (hq : ∀ s', Tr st s' F → s'.rest = s.rest.dropWhile p → s'.ext = s.ext ++ s.rest.takeWhile p → s'.aot = s.aot → Q () s') :
    (Tomlkit.skip p).wp Q E s := wp_skip (hq _ (h.to (List.dropWhile_suffix p)) rfl rfl rfl)

theorem Tr.stepN (h : Tr st s F) {n : Nat} {Q : Unit → St → Prop} {E}
    (hq : ∀ s', Tr st s' F → s'.rest = s.rest.drop n → s'.ext = s.ext ++ s.rest.take n → s'.aot = s.aot → Q () s') :
    (Tomlkit.stepN n).wp Q E s := wp_stepN (hq _ (h.to (List.drop_suffix n _)) rfl rfl rfl)

theorem Tr.step (h : Tr st s F) {Q : Unit → St → Prop} {E}
    (hq : ∀ s', Tr st s' F → s'.rest = s.rest.drop 1 → s'.ext = s.ext ++ s.rest.take 1 → s'.aot = s.aot → Q () s') :
    Tomlkit.step.wp Q E s := wp_step (hq _ (h.to (List.drop_suffix 1 _)) rfl rfl rfl)

theorem Tr.stepE (h : Tr st s F) {Q : Unit → St → Prop}
    (hq : ∀ s', Tr st s' F → s'.rest = s.rest.drop 1 → s'.ext = s.ext ++ s.rest.take 1 → s'.aot = s.aot →
      1 < s.rest.length → Q () s') :
    Tomlkit.stepE.wp Q (ErrK st) s := by
  unfold P.wp Tomlkit.stepE
  rcases hs : s.rest with _ | ⟨c, _ | ⟨d, r⟩⟩
  · exact ⟨h.loss, h.suf⟩
  · exact ⟨h.loss, List.nil_suffix⟩
  · refine hq _ (h.to (r := d :: r) (by rw [hs]; exact List.suffix_cons _ _)) (by rw [hs]; rfl) (by rw [hs]; rfl) rfl ?_
    rw [hs]; simp

theorem Tr.note (h : Tr st s F) {b : Bool} {l : Loss} {Q : Unit → St → Prop} {E}
    (hq : ∀ s', Tr st s' (F ∧ b = false) → s'.rest = s.rest → s'.ext = s.ext → s'.aot = s.aot → Q () s') :
    (Tomlkit.note b l).wp Q E s := by
  refine wp_note ?_
  cases b
  · exact hq s (h.imp fun hf => ⟨hf, rfl⟩) rfl rfl rfl
  · refine hq _ ⟨h.loss.trans (List.prefix_append _ _), h.suf, ?_⟩ rfl rfl rfl
    intro hl; simp at hl
end

/-- the text between two positions -/
def Ate (st s : St) (u : Str) : Prop := st.rest = u ++ s.rest

theorem ate_nil {st s : St} (h : s.rest = st.rest) : Ate st s [] := by simp [Ate, h]
theorem ate_trans {a b c : St} {u v : Str} (h : Ate a b u) (h' : Ate b c v) : Ate a c (u ++ v) := by
  unfold Ate at *; rw [h, h']; simp
theorem ate_skip {st s : St} {p : Chr → Bool} (h : s.rest = st.rest.dropWhile p) : Ate st s (st.rest.takeWhile p) := by
  unfold Ate; rw [h, List.takeWhile_append_dropWhile]
theorem ate_drop {st s : St} {n : Nat} (h : s.rest = st.rest.drop n) : Ate st s (st.rest.take n) := by
  unfold Ate; rw [h, List.take_append_drop]
theorem ate_cur {st s : St} {c : Chr} (hc : st.cur = c) (h0 : c ≠ 0) (h : s.rest = st.rest.drop 1) : Ate st s [c] := by
  obtain ⟨r, hr⟩ := cur_cons hc h0
  unfold Ate; rw [h, hr]; rfl

/-! ### comments -/

theorem parseTrail_keeps (st : St) : Keeps parseTrail (fun a s => ∃ u, Ate st s u ∧ a = st.ext ++ u) st := by
  have h := Tr.refl st
  unfold Keeps parseTrail
  refine wp_bind (h.skip fun s h hr he _ => ?_)
  have hs : Ate st s (st.rest.takeWhile isSpaces) := ate_skip hr
  revert hs he
  generalize st.rest.takeWhile isSpaces = u0
  intro he hs
  refine wp_bind (wp_getSt ?_)
  have hmain : ∀ s u, Tr st s True → Ate st s u → s.ext = st.ext ++ u → P.wp (do
      let st ← getSt
      if st.cur = 10 then step
      extract) (fun a s => Tr st s (∃ u, Ate st s u ∧ a = st.ext ++ u)) (ErrK st) s := by
    intro s u h hs he
    refine wp_bind (wp_getSt (wp_ite (fun hc => ?_) (fun _ => ?_)))
    · refine wp_bind (h.step fun s' h hr he' _ => ?_)
      exact wp_extract (h.imp fun _ => ⟨_, ate_trans hs (ate_drop hr), by rw [he', he]; simp⟩)
    · exact wp_extract (h.imp fun _ => ⟨_, hs, he⟩)
  refine wp_ite (fun _ => ?_) (fun _ => ?_)
  · refine wp_bind (h.step fun s' h hr he' _ => ?_)
    exact hmain s' _ h (ate_trans hs (ate_drop hr)) (by rw [he', he]; simp)
  · exact hmain s _ h hs he

/-- what a comment and a trail are made of -/
theorem parseCommentTrail_keeps (st : St) :
    Keeps (parseCommentTrail true) (fun a s => Ate st s (a.1 ++ a.2.1 ++ a.2.2) ∧
      (∀ c ∈ a.1, isSpTabCr c = true) ∧ (a.1 ≠ [] → a.2.1 ≠ [])) st := by
  have h := Tr.refl st
  unfold Keeps parseCommentTrail
  refine wp_bind (wp_getSt (wp_ite (fun _ => h.ret fun _ => ⟨ate_nil rfl, by simp, by simp⟩) (fun _ => ?_)))
  refine wp_bind (h.mark fun s h hr he _ => ?_)
  refine wp_bind (h.skip fun s' h hr' he' _ => ?_)
  have hs : Ate st s' s'.ext := by
    have := ate_skip hr'
    rw [he', he, List.nil_append]
    unfold Ate at *
    rw [← hr]; exact this
  have hsp : ∀ c ∈ s'.ext, isSpTabCr c = true := by
    rw [he', he, List.nil_append]
    have := List.all_takeWhile (l := s.rest) (p := isSpTabCr)
    rwa [List.all_eq_true] at this
  refine wp_bind (wp_getSt (wp_ite (fun _ => ?_) fun _ => wp_ite (fun hc => ?_) (fun _ => h.fail)))
  · rw [if_pos rfl]
    refine wp_bind (h.call (parseTrail_keeps s') fun a s2 h2 => ?_)
    refine h2.ret fun hf => ⟨?_, by simp, by simp⟩
    obtain ⟨_, u, hu, rfl⟩ := hf
    have := ate_trans hs hu
    simpa using this
  · refine wp_bind (wp_extract ?_)
    refine wp_bind (h.mark fun s2 h hr2 he2 _ => ?_)
    refine wp_bind (h.step fun s3 h hr3 he3 _ => ?_)
    refine wp_bind (h.skip fun s4 h hr4 he4 _ => ?_)
    have h24 : Ate s' s4 s4.ext := by
      have h1 : Ate s' s3 (s2.rest.take 1) := by unfold Ate; rw [hr3, List.take_append_drop, hr2]
      have := ate_trans h1 (ate_skip hr4)
      rw [he4, he3, he2, List.nil_append]; exact this
    refine wp_bind (wp_getSt (wp_ite (fun _ => h.fail) fun _ => ?_))
    have hne : s4.ext ≠ [] := by
      obtain ⟨r, hr⟩ := cur_cons hc (by decide)
      rw [he4, he3, he2, hr2, hr]; simp
    refine wp_bind (wp_extract (wp_bind (h.mark fun s5 h hr5 he5 _ => ?_)))
    rw [if_pos rfl]
    refine wp_bind (h.call (parseTrail_keeps s5) fun a s6 h6 => ?_)
    refine h6.ret fun hf => ⟨?_, hsp, fun _ => hne⟩
    obtain ⟨_, u, hu, rfl⟩ := hf
    rw [he5, List.nil_append]
    refine ate_trans (ate_trans hs h24) ?_
    unfold Ate at *; rw [← hr5]; exact hu

/-- the comment of an array, read at the `#` -/
theorem parseCommentTrail_array (st : St) (hc : st.cur = 35) :
    Keeps (parseCommentTrail false) (fun a s => a.1 = [] ∧ a.2.2 = [] ∧ Ate st s a.2.1 ∧
      (s.rest = [] ∨ ∃ c r, s.rest = c :: r ∧ isNl c = true)) st := by
  have h := Tr.refl st
  obtain ⟨r, hr⟩ := cur_cons hc (by decide)
  unfold Keeps parseCommentTrail
  refine wp_bind (wp_getSt (wp_ite (fun h => ?_) (fun _ => ?_)))
  · simp [St.atEnd, hr] at h
  refine wp_bind (h.mark fun s h hr' he _ => ?_)
  refine wp_bind (h.skip fun s' h hr2 he2 _ => ?_)
  have hr3 : s'.rest = 35 :: r := by rw [hr2, hr', hr]; rfl
  have hx : s'.ext = [] := by rw [he2, he, hr', hr]; rfl
  have hc : s'.cur = 35 := by unfold St.cur; rw [hr3]
  refine wp_bind (wp_getSt (wp_ite (fun h => ?_) fun _ => wp_ite (fun _ => ?_) (fun h => absurd hc h)))
  · simp [St.atEnd, hr3, hc] at h
  refine wp_bind (wp_extract ?_)
  rw [hx]
  refine wp_bind (h.mark fun s2 h hr2 he2 _ => ?_)
  refine wp_bind (h.step fun s3 h hr3' he3 _ => ?_)
  refine wp_bind (h.skip fun s4 h hr4 he4 _ => ?_)
  have h24 : Ate st s4 s4.ext := by
    have h1 : Ate st s3 (s2.rest.take 1) := by unfold Ate; rw [hr3', List.take_append_drop, hr2, hr3, hr]
    have := ate_trans h1 (ate_skip hr4)
    rw [he4, he3, he2, List.nil_append]; exact this
  refine wp_bind (wp_getSt (wp_ite (fun _ => h.fail) fun hq => ?_))
  refine wp_bind (wp_extract (wp_bind (h.mark fun s5 h hr5 he5 _ => ?_)))
  rw [if_neg (by decide)]
  refine wp_bind (wp_pure (h.ret fun _ => ⟨rfl, rfl, ?_, ?_⟩))
  · unfold Ate at *; rw [hr5]; exact h24
  · rw [hr5]
    rcases hs4 : s4.rest with _ | ⟨c, q⟩
    · exact Or.inl rfl
    · refine Or.inr ⟨c, q, rfl, ?_⟩
      simpa [St.atEnd, hs4, St.cur] using hq

/-! ### strings -/

theorem parseEscapedChar_keeps (m : Bool) (st : St) :
    Keeps (parseEscapedChar m) (fun _ s => ∃ u, Ate st s u ∧ s.ext = st.ext ++ u) st := by
  have h := Tr.refl st
  unfold Keeps parseEscapedChar
  refine wp_bind (wp_getSt (wp_ite (fun hc => ?_) (fun _ => ?_)))
  · refine wp_bind (h.skip fun s h hr he _ => ?_)
    exact wp_bind (wp_getSt (wp_ite (fun _ => h.fail) fun _ => wp_ite (fun _ => h.fail) fun _ =>
      h.ret fun _ => ⟨_, ate_skip hr, he⟩))
  · split
    · exact wp_bind (h.stepE fun s h hr he _ _ => h.ret fun _ => ⟨_, ate_drop hr, he⟩)
    · refine wp_ite (fun hc => ?_) (fun _ => h.fail)
      dsimp only
      split
      · exact wp_bind (h.stepN fun s h hr he _ => h.ret fun _ => ⟨_, ate_drop hr, he⟩)
      · exact h.fail

theorem take_while_cur {p : Chr → Bool} {s : St} : Ate s ⟨s.rest.dropWhile p, [], [], []⟩ (s.rest.takeWhile p) :=
  ate_skip rfl

/-- a closing run of at least three quotes: the text before its last three -/
theorem close_run (d : StrType) (hm : d.isMultiline = true) (close : Str) (hc : ∀ c ∈ close, (c == d.unit) = true)
    (h3 : 3 ≤ close.length) : close = close.take (close.length - 3) ++ d.value := by
  have h1 : close = List.replicate close.length d.unit := by
    rw [List.eq_replicate_iff]
    exact ⟨rfl, fun c h => by simpa using hc c h⟩
  have h2 : d.value = List.replicate 3 d.unit := by cases d <;> first | rfl | cases hm
  conv => lhs; rw [h1]
  rw [h2]
  conv => rhs; rw [h1]
  simp only [List.length_replicate, List.take_replicate]
  rw [List.replicate_append_replicate]
  congr 1
  omega

theorem strLoop_keeps (d : StrType) : ∀ (n : Nat) (v : Str) (esc : Bool) (st : St),
    Keeps (strLoop d n v esc) (fun i s => ∃ x o u, i = .str d x (st.ext ++ o) {} ∧ Ate st s u ∧ u = o ++ d.value) st := by
  intro n
  induction n with
  | zero => intro v esc st; exact (Tr.refl st).raise
  | succ n ih =>
    intro v esc st
    have h := Tr.refl st
    have hgo : ∀ (v : Str) (esc : Bool) (s : St) (u : Str), Tr st s True → Ate st s u → s.ext = st.ext ++ u →
        P.wp (strLoop d n v esc) (fun i s => Tr st s (∃ x o u, i = .str d x (st.ext ++ o) {} ∧ Ate st s u ∧ u = o ++ d.value))
          (ErrK st) s := by
      intro v esc s u h hu he
      refine h.last (ih v esc s) ?_
      rintro i s' _ ⟨x, o, u', rfl, hu', rfl⟩
      exact ⟨x, u ++ o, _, by rw [he]; simp, ate_trans hu hu', by simp⟩
    unfold Keeps strLoop
    refine wp_bind (wp_getSt (wp_ite (fun _ => h.fail) fun _ => wp_ite (fun hc => ?_) (fun _ => wp_ite (fun _ => ?_)
      fun _ => wp_ite (fun _ => ?_) fun _ => ?_)))
    · simp only [Bool.and_eq_true, decide_eq_true_eq] at hc
      refine wp_ite (fun hm => ?_) (fun hm => ?_)
      · refine wp_bind (wp_extract ?_)
        refine wp_bind (h.skip fun s h hr he _ => ?_)
        have hclose : ∀ c ∈ st.rest.takeWhile (· == d.unit), (c == d.unit) = true := by
          have := List.all_takeWhile (l := st.rest) (p := (· == d.unit))
          rwa [List.all_eq_true] at this
        refine wp_ite (fun _ => hgo _ _ _ _ h (ate_skip hr) he) (fun _ => wp_ite (fun h3 => ?_) fun h3 =>
          wp_ite (fun _ => h.fail) fun _ => ?_)
        · refine h.ret fun _ => ⟨v, [], _, by rw [List.append_nil], ate_skip hr, ?_⟩
          have := close_run d hm _ hclose (by omega)
          rw [h3] at this
          simpa using this
        · refine h.ret fun _ => ⟨_, _, _, rfl, ate_skip hr, ?_⟩
          exact close_run d hm _ hclose (by omega)
      · refine wp_bind (wp_extract (wp_bind (h.step fun s h hr he _ => h.ret fun _ => ⟨v, [], _, by rw [List.append_nil],
          ate_cur hc.2 (unit_ne_zero d) hr, ?_⟩)))
        cases d <;> simp_all [StrType.isMultiline, StrType.unit, StrType.value]
    · refine wp_bind (h.call (parseEscapedChar_keeps _ _) fun a s h => ?_)
      refine (show Tr st s _ from h) |>.last (ih _ _ _) ?_
      rintro i s' ⟨_, u, hu, he⟩ ⟨x, o, u', rfl, hu', rfl⟩
      exact ⟨x, u ++ o, _, by rw [he]; simp, ate_trans hu hu', by simp⟩
    · exact wp_bind (h.stepE fun s h hr he _ _ => hgo _ _ _ _ h (ate_drop hr) he)
    · exact wp_bind (h.stepE fun s h hr he _ _ => hgo _ _ _ _ h (ate_drop hr) he)

/-- a string and its text -/
def StrIs (st : St) (i : Item) (s : St) : Prop := ∃ ty x o, i = .str ty x o {} ∧ Ate st s (ty.value ++ o ++ ty.value)

theorem strBody_keeps (d : StrType) (st : St) :
    Keeps (strBody d) (fun i s => ∃ x o, i = .str d x o {} ∧ Ate st s (o ++ d.value)) st := by
  have h := Tr.refl st
  have hloop : ∀ s u, Tr st s True → Ate st s u → s.ext = u → P.wp (do
      let st ← getSt
      strLoop d (st.rest.length + 1) [] false) (fun i s => Tr st s (∃ x o, i = .str d x o {} ∧ Ate st s (o ++ d.value)))
      (ErrK st) s := by
    intro s u h hu he
    refine wp_bind (wp_getSt (h.last (strLoop_keeps d _ _ _ s) ?_))
    rintro i s' _ ⟨x, o, u', rfl, hu', rfl⟩
    refine ⟨x, _, rfl, ?_⟩
    have := ate_trans hu hu'
    rw [he]; simpa using this
  unfold Keeps strBody
  refine wp_bind (h.mark fun s h hr he _ => ?_)
  have h0 : Ate st s [] := ate_nil hr
  unfold skipFirstNl
  refine wp_bind (wp_ite (fun _ => ?_) fun _ => wp_pure (hloop _ _ h h0 he))
  refine wp_bind (wp_getSt (wp_ite (fun _ => ?_) fun _ => wp_ite (fun _ => ?_) fun _ => wp_pure (hloop _ _ h h0 he)))
  · exact h.stepE fun s h hr he' _ _ => hloop _ _ h (ate_trans h0 (ate_drop hr)) (by rw [he', he])
  · refine wp_bind (h.stepN fun s h hr he' _ => ?_)
    exact wp_bind (wp_getSt (wp_ite (fun _ => h.fail) fun _ => wp_pure (hloop _ _ h (ate_trans h0 (ate_drop hr))
      (by rw [he', he]))))

theorem toggle_value (d : StrType) (h : d.isMultiline = false) : d.toggle.value = [d.unit, d.unit, d.unit] := by
  cases d <;> first | rfl | cases h

theorem value_single (d : StrType) (h : d.isMultiline = false) : d.value = [d.unit] := by
  cases d <;> first | rfl | cases h

theorem parseString_keeps (d : StrType) (hd : d.isMultiline = false) (st : St) : Keeps (parseString d) (StrIs st) st := by
  have h := Tr.refl st
  unfold Keeps parseString
  refine wp_bind (wp_getSt (wp_ite (fun _ => h.fail) fun hc => ?_))
  simp only [ne_eq, Decidable.not_not] at hc
  refine wp_bind (h.stepE fun s h hr _ _ _ => ?_)
  have h1 := ate_cur hc (unit_ne_zero d) hr
  refine wp_bind (wp_getSt (wp_ite (fun hc2 => ?_) fun _ => ?_))
  · refine wp_bind (h.step fun s2 h hr2 _ _ => ?_)
    have h2 := ate_trans h1 (ate_cur hc2 (unit_ne_zero d) hr2)
    refine wp_bind (wp_getSt (wp_ite (fun _ => ?_) fun hc3 => ?_))
    · refine h.ret fun _ => ⟨d, [], [], rfl, ?_⟩
      rw [value_single d hd]; exact h2
    simp only [ne_eq, Decidable.not_not] at hc3
    refine wp_bind (h.stepE fun s3 h hr3 _ _ _ => ?_)
    have h3 := ate_trans h2 (ate_cur hc3 (unit_ne_zero d) hr3)
    refine h.last (strBody_keeps _ _) ?_
    rintro i s' _ ⟨x, o, rfl, hu⟩
    refine ⟨_, x, o, rfl, ?_⟩
    have := ate_trans h3 hu
    rw [toggle_value d hd] at *
    simpa using this
  · refine h.last (strBody_keeps _ _) ?_
    rintro i s' _ ⟨x, o, rfl, hu⟩
    refine ⟨_, x, o, rfl, ?_⟩
    have := ate_trans h1 hu
    rw [value_single d hd] at *
    simpa using this

/-! ### keys -/

/-- a key as it is read: its text is the parts joined by dots, and it has no separator yet -/
structure KeyIs (k : Key) (u : Str) : Prop where
  text : k.asString = u
  parts : joinDot (k.parts.map SKey.orig) = u
  sep : k.sep = []
  ne : k.parts ≠ []
  one : ∀ p, k.parts = [p] → k = .single p
  plain : ∀ p ∈ k.parts, p.dotted = false ∧ p.sep = []

theorem joinDot_cons (a : Str) (l : List Str) (h : l ≠ []) : joinDot (a :: l) = a ++ 46 :: joinDot l := by
  cases l with
  | nil => exact absurd rfl h
  | cons b r => rfl

theorem KeyIs.single {k : SKey} {u : Str} (h : k.orig = u) (hs : k.sep = []) (hd : k.dotted = false) : KeyIs (.single k) u :=
  ⟨h, h, hs, by simp [Key.parts], by rintro p hp; cases hp; rfl, by simp [Key.parts, hs, hd]⟩

theorem KeyIs.concat {k : SKey} {b : Key} {u v : Str} (h : k.orig = u) (hs : k.sep = []) (hd : k.dotted = false) (hb : KeyIs b v) :
    KeyIs ((Key.single k).concat b) (u ++ 46 :: v) := by
  have : joinDot ((k :: b.parts).map SKey.orig) = u ++ 46 :: v := by
    rw [List.map_cons, joinDot_cons _ _ (by simpa using hb.ne), hb.parts, h]
  refine ⟨this, this, hs, by simp [Key.concat, Key.parts], ?_, ?_⟩
  · intro p hp
    have : b.parts = [] := by
      have := congrArg List.length (show k :: b.parts = [p] from hp)
      simpa using this
    exact absurd this hb.ne
  intro p hp
  rcases List.mem_cons.1 (show p ∈ k :: b.parts from hp) with rfl | hp
  · exact ⟨hd, hs⟩
  · exact hb.plain p hp

theorem parseKey_keeps : ∀ (n : Nat) (st : St), Keeps (parseKey n) (fun k s => ∃ u, Ate st s u ∧ KeyIs k u) st := by
  intro n
  induction n with
  | zero => intro st; exact (Tr.refl st).raise
  | succ n ih =>
    intro st
    have h := Tr.refl st
    have hrest : ∀ (key : SKey) (s : St) (F : Prop), Tr st s F → (F → Ate st s key.orig) → key.sep = [] →
        key.dotted = false → P.wp (do
        let st ← getSt
        if st.cur = 46 then
          step
          let k ← parseKey n
          return (Key.single key).concat k
        else return .single key) (fun k s => Tr st s (∃ u, Ate st s u ∧ KeyIs k u)) (ErrK st) s := by
      intro key s F h hu hs hd
      refine wp_bind (wp_getSt (wp_ite (fun hc => ?_) fun _ => h.ret fun hf => ⟨_, hu hf, .single rfl hs hd⟩))
      refine wp_bind (h.step fun s2 h hr _ _ => ?_)
      refine wp_bind (h.call (ih s2) fun k s3 h => ?_)
      refine h.ret ?_
      rintro ⟨hf, u, h2, hk⟩
      refine ⟨_, ?_, KeyIs.concat rfl hs hd hk⟩
      have := ate_trans (ate_trans (hu hf) (ate_cur hc (by decide) hr)) h2
      simpa using this
    unfold Keeps parseKey
    refine wp_bind (h.mark fun s1 h hr1 he1 _ => ?_)
    refine wp_bind (h.skip fun s2 h hr2 he2 _ => ?_)
    have h2 : Ate st s2 s2.ext := by
      rw [he2, he1, List.nil_append]
      have := ate_skip hr2
      unfold Ate at *; rw [← hr1]; exact this
    refine wp_bind (wp_getSt (wp_ite (fun hc => ?_) fun _ => ?_))
    · refine wp_bind (wp_extract ?_)
      refine wp_bind ((h.call (parseString_keeps _ (by split <;> rfl) _) fun v s3 h => ?_))
      dsimp only
      split
      · rename_i ty x o t
        refine wp_ite (fun _ => h.fail) fun _ => ?_
        refine wp_bind (h.mark fun s4 h hr4 he4 _ => ?_)
        refine wp_bind (h.skip fun s5 h hr5 he5 _ => ?_)
        refine wp_bind (wp_extract ?_)
        refine hrest _ _ _ h ?_ rfl rfl
        rintro ⟨_, ty', x', o', hstr, h3⟩
        cases hstr
        have h5 : Ate s3 s5 s5.ext := by
          rw [he5, he4, List.nil_append]
          have := ate_skip hr5
          unfold Ate at *; rw [← hr4]; exact this
        exact ate_trans (ate_trans h2 h3) h5
      · exact h.raise
    · refine wp_bind (h.skip fun s3 h hr3 he3 _ => ?_)
      refine wp_bind (wp_extract (wp_ite (fun _ => h.fail) fun _ => wp_ite (fun _ => h.fail) fun _ => ?_))
      refine hrest _ _ _ h ?_ rfl rfl
      intro _
      rw [he3]
      exact ate_trans h2 (ate_skip hr3)

theorem parseKeyHere_keeps (st : St) : Keeps parseKeyHere (fun k s => ∃ u, Ate st s u ∧ KeyIs k u) st :=
  wp_bind (wp_getSt (parseKey_keeps _ st))

theorem headerKey_keeps (st : St) : Keeps headerKey (fun k s => ∃ u, Ate st s u ∧ KeyIs k u) st := by
  have h := parseKeyHere_keeps st
  unfold Keeps P.wp headerKey at *
  rcases hk : parseKeyHere st with ⟨a, s⟩ | ⟨e, s⟩ <;> rw [hk] at h
  · exact h
  · cases e
    case parse k r => cases k <;> exact h
    all_goals exact h

theorem parseSep_keeps (st : St) : Keeps parseSep (fun a s => Ate st s a) st := by
  have h := Tr.refl st
  unfold Keeps parseSep
  refine wp_bind (h.mark fun s h hr he _ => ?_)
  refine wp_bind (wp_getSt (wp_ite (fun _ => ?_) fun hc => wp_ite (fun _ => ?_) fun _ => ?_))
  · exact wp_bind (h.stepN fun s h _ _ _ => h.fail)
  · exact wp_bind (h.stepN fun s h _ _ _ => h.fail)
  · refine wp_bind (h.stepN fun s' h hr' he' _ => wp_extract (h.imp fun _ => ?_))
    rw [he', he, List.nil_append]
    have := ate_drop hr'
    unfold Ate at *; rw [← hr]; exact this

end Tomlkit
