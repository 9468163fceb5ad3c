import Verif.Proofs.Local
/-!
# Strings, keys and separators do not depend on what comes after them
-/
namespace Tomlkit

/-- If `p` succeeds on `u ++ t` with an empty log and stops within `u`, then `p'` does the same on `u ++ t'`. When `B` fails, it has
to stop before the end of `u`. -/
def Rel {α : Type} (t t' : Str) (a' : List Key) (l : List Loss) (B : Prop) (p p' : P α) (u e : Str) (a : List Key) : Prop :=
  ∀ x s1, p ⟨u ++ t, e, a, []⟩ = .ok x s1 → s1.loss = [] → t.length ≤ s1.rest.length → (B ∨ t.length < s1.rest.length) →
    ∃ w, s1.rest = w ++ t ∧ p' ⟨u ++ t', e, a', l⟩ = .ok x ⟨w ++ t', s1.ext, a', l⟩

section
variable {α β : Type} {t t' : Str} {l : List Loss} {B B' : Prop} {u e : Str} {a a' : List Key}

theorem Rel.bind {p p' : P β} {f f' : β → P α} (hp : Rel t t' a' l B' p p' u e a) (hm : ∀ b, Mono (f b))
    (hs : B → B' ∨ ∀ b, Eats (f b))
    (hf : ∀ b w e1 a1, p ⟨u ++ t, e, a, []⟩ = .ok b ⟨w ++ t, e1, a1, []⟩ → Rel t t' a' l B (f b) (f' b) w e1 a1) :
    Rel t t' a' l B (p >>= f) (p' >>= f') u e a := by
  intro x s1 h hl hlen hB
  obtain ⟨b, s2, h1, h2⟩ := bind_ok h
  obtain ⟨m1, m2⟩ := hm b _ _ _ h2
  have m1 := m1.length_le
  have hl2 := loss_nil m2 hl
  obtain ⟨w, hw, hp2⟩ := hp b s2 h1 hl2 (by omega) (by
    rcases hB with hB | hB
    · rcases hs hB with h | h
      · exact .inl h
      · right
        have := h b _ _ _ h2 hl
        omega
    · right; omega)
  rcases s2 with ⟨r2, e2, a2, l2⟩
  simp only at hw hl2 h1 h2 hp2
  subst hw hl2
  obtain ⟨w', hw', h3⟩ := hf b w e2 a2 h1 x s1 h2 hl hlen hB
  refine ⟨w', hw', ?_⟩
  rw [P.bind_def, hp2]
  exact h3

theorem Rel.imp {p p' : P α} (h : Rel t t' a' l B p p' u e a) (hB : B' → B) : Rel t t' a' l B' p p' u e a :=
  fun x s1 h1 h2 h3 h4 => h x s1 h1 h2 h3 (h4.imp_left hB)

/-- something has to be consumed, so there is something -/
theorem Rel.ne {p p' : P α} (hm : Mono p) (hB : B → Eats p) (h : u ≠ [] → Rel t t' a' l B p p' u e a) : Rel t t' a' l B p p' u e a := by
  intro x s1 h1 h2 h3 h4
  by_cases hu : u = []
  · exfalso
    subst hu
    have := (hm _ _ _ h1).1.length_le
    rw [List.nil_append] at h1 this
    simp only at this
    rcases h4 with h4 | h4
    · have := hB h4 _ _ _ h1 h2
      simp only at this
      omega
    · omega
  · exact h hu x s1 h1 h2 h3 h4

theorem Rel.pure (x : α) : Rel t t' a' l B (Pure.pure x : P α) (Pure.pure x) u e a := by
  intro y s1 h hl hlen hB
  cases h
  exact ⟨u, rfl, rfl⟩

theorem Rel.fail (k : PKind) (p' : P α) : Rel t t' a' l B (Tomlkit.fail k) p' u e a := fun y s1 h => by cases h
theorem Rel.raise (k : Err) (p' : P α) : Rel t t' a' l B (Tomlkit.raise k) p' u e a := fun y s1 h => by cases h

theorem Rel.getSt {f f' : St → P α} (h : Rel t t' a' l B (f ⟨u ++ t, e, a, []⟩) (f' ⟨u ++ t', e, a', l⟩) u e a) :
    Rel t t' a' l B (Tomlkit.getSt >>= f) (Tomlkit.getSt >>= f') u e a := h

theorem Rel.mark {f f' : Unit → P α} (h : Rel t t' a' l B (f ()) (f' ()) u [] a) :
    Rel t t' a' l B (Tomlkit.mark >>= f) (Tomlkit.mark >>= f') u e a := h

theorem Rel.extract {f f' : Str → P α} (h : Rel t t' a' l B (f e) (f' e) u e a) :
    Rel t t' a' l B (Tomlkit.extract >>= f) (Tomlkit.extract >>= f') u e a := h

theorem Rel.ite {c c' : Prop} [Decidable c] [Decidable c'] {p q p' q' : P α} (h : c ↔ c') (h1 : c → Rel t t' a' l B p p' u e a)
    (h2 : ¬ c → Rel t t' a' l B q q' u e a) : Rel t t' a' l B (if c then p else q) (if c' then p' else q') u e a := by
  by_cases hc : c
  · rw [if_pos hc, if_pos (h.1 hc)]; exact h1 hc
  · rw [if_neg hc, if_neg (fun h' => hc (h.2 h'))]; exact h2 hc

theorem Rel.note (b : Bool) (k : Loss) : Rel t t' a' l True (Tomlkit.note b k) (Tomlkit.note b k) u e a := by
  intro x s1 h hl hlen hB
  cases b <;> cases h
  · exact ⟨u, rfl, rfl⟩
  · simp at hl

theorem Rel.lift (x : Except Err α) : Rel t t' a' l True (Tomlkit.lift x) (Tomlkit.lift x) u e a := by
  intro y s1 h hl hlen hB
  rcases x with er | v <;> cases h
  exact ⟨u, rfl, rfl⟩

theorem Rel.step {c : Chr} : Rel t t' a' l True Tomlkit.step Tomlkit.step (c :: u) e a := by
  intro y s1 h hl hlen hB
  cases h
  exact ⟨u, rfl, rfl⟩

theorem Rel.stepE : Rel t t' a' l False Tomlkit.stepE Tomlkit.stepE u e a := by
  intro y s1 h hl hlen hB
  rcases hB with hB | hB
  · cases hB
  have hm := (mono_stepE _ _ _ h).1.length_le
  rcases u with _ | ⟨c, _ | ⟨d, r⟩⟩
  · simp at hm; omega
  · exfalso
    have := eats_stepE _ _ _ h hl
    simp only [List.singleton_append, List.length_cons] at this
    omega
  · cases h
    exact ⟨d :: r, rfl, rfl⟩

/-- a run of characters that ends within the text -/
theorem skip_near {q : Chr → Bool} {u t : Str} (h : t.length < ((u ++ t).dropWhile q).length) :
    u.dropWhile q ≠ [] ∧ ∀ t', (u ++ t').dropWhile q = u.dropWhile q ++ t' ∧ (u ++ t').takeWhile q = u.takeWhile q := by
  induction u with
  | nil =>
    have := (List.dropWhile_suffix q (l := t)).length_le
    rw [List.nil_append] at h
    omega
  | cons c u ih =>
    by_cases hc : q c = true
    · rw [List.cons_append, List.dropWhile_cons_of_pos hc] at h
      obtain ⟨h1, h2⟩ := ih h
      refine ⟨by rwa [List.dropWhile_cons_of_pos hc], fun t' => ?_⟩
      rw [List.cons_append, List.dropWhile_cons_of_pos hc, List.dropWhile_cons_of_pos hc, List.takeWhile_cons_of_pos hc,
        List.takeWhile_cons_of_pos hc, (h2 t').1, (h2 t').2]
      exact ⟨rfl, rfl⟩
    · refine ⟨by rw [List.dropWhile_cons_of_neg hc]; simp, fun t' => ?_⟩
      rw [List.cons_append, List.dropWhile_cons_of_neg hc, List.dropWhile_cons_of_neg hc, List.takeWhile_cons_of_neg hc,
        List.takeWhile_cons_of_neg hc]
      exact ⟨rfl, rfl⟩

theorem Rel.skip (q : Chr → Bool) : Rel t t' a' l False (Tomlkit.skip q) (Tomlkit.skip q) u e a := by
  intro y s1 h hl hlen hB
  cases h
  rcases hB with hB | hB
  · cases hB
  obtain ⟨_, h2⟩ := skip_near hB
  refine ⟨u.dropWhile q, (h2 t).1, ?_⟩
  show Res.ok () _ = _
  simp only [(h2 t).1, (h2 t).2, (h2 t').1, (h2 t').2]

/-- where a run of characters stops -/
def StopsAt (q : Chr → Bool) (t' : Str) : Prop := ∀ c r, t' = c :: r → q c = false

theorem dropWhile_stop {q : Chr → Bool} {t' : Str} (h : StopsAt q t') : t'.dropWhile q = t' ∧ t'.takeWhile q = [] := by
  rcases t' with _ | ⟨c, r⟩
  · exact ⟨rfl, rfl⟩
  · have := h c r rfl
    rw [List.dropWhile_cons_of_neg (by simp [this]), List.takeWhile_cons_of_neg (by simp [this])]
    exact ⟨rfl, rfl⟩

/-- a run of characters that ends within the text or at its end -/
theorem skip_upto {q : Chr → Bool} {u t : Str} (h : t.length ≤ ((u ++ t).dropWhile q).length) :
    (u ++ t).dropWhile q = u.dropWhile q ++ t ∧ (u ++ t).takeWhile q = u.takeWhile q ∧
    ∀ t', StopsAt q t' → (u ++ t').dropWhile q = u.dropWhile q ++ t' ∧ (u ++ t').takeWhile q = u.takeWhile q := by
  by_cases hlt : t.length < ((u ++ t).dropWhile q).length
  · obtain ⟨_, h2⟩ := skip_near hlt
    exact ⟨(h2 t).1, (h2 t).2, fun t' _ => h2 t'⟩
  · have hlen : ((u ++ t).dropWhile q).length = t.length := by omega
    have hall : ∀ (u : Str), t.length = ((u ++ t).dropWhile q).length → (∀ x ∈ u, q x = true) ∧ t.dropWhile q = t := by
      intro u
      induction u with
      | nil =>
        intro h
        refine ⟨by simp, ?_⟩
        exact (List.dropWhile_suffix q).eq_of_length (by simpa using h.symm)
      | cons c u ih =>
        intro h
        by_cases hc : q c = true
        · rw [List.cons_append, List.dropWhile_cons_of_pos hc] at h
          obtain ⟨h1, h2⟩ := ih h
          refine ⟨fun x hx => ?_, h2⟩
          rcases List.mem_cons.1 hx with rfl | hx
          · exact hc
          · exact h1 x hx
        · rw [List.cons_append, List.dropWhile_cons_of_neg hc] at h
          simp at h
          omega
    obtain ⟨h1, h2⟩ := hall u hlen.symm
    have hd : u.dropWhile q = [] := by
      
      have := List.dropWhile_append_of_pos (l₂ := []) h1
      simpa using this
    have ht : u.takeWhile q = u := takeWhile_all' h1
    have h3 : t.takeWhile q = [] := by
      have h4 := List.takeWhile_append_dropWhile (p := q) (l := t)
      rw [h2] at h4
      have := congrArg List.length h4
      rw [List.length_append] at this
      exact List.length_eq_zero_iff.1 (by omega)
    rw [hd, ht, List.dropWhile_append_of_pos h1, List.takeWhile_append_of_pos h1, h2, h3]
    refine ⟨rfl, by simp, fun t' hs => ?_⟩
    obtain ⟨g1, g2⟩ := dropWhile_stop hs
    rw [List.dropWhile_append_of_pos h1, List.takeWhile_append_of_pos h1, g1, g2]
    exact ⟨rfl, by simp⟩

theorem Rel.skipTo {q : Chr → Bool} (hq : StopsAt q t') : Rel t t' a' l True (Tomlkit.skip q) (Tomlkit.skip q) u e a := by
  intro y s1 h hl hlen hB
  cases h
  obtain ⟨h1, h2, h3⟩ := skip_upto hlen
  obtain ⟨h4, h5⟩ := h3 t' hq
  refine ⟨u.dropWhile q, h1, ?_⟩
  show Res.ok () _ = _
  simp only [h1, h2, h4, h5]

/-- looking at a run of characters, then skipping it -/
theorem Rel.look {q : Chr → Bool} {f f' : Str → P α} (hm : ∀ x, Mono (f x)) (hs : B → StopsAt q t' ∨ ∀ x, Eats (f x))
    (hf : Rel t t' a' l B (f (u.takeWhile q)) (f' (u.takeWhile q)) (u.dropWhile q) (e ++ u.takeWhile q) a) :
    Rel t t' a' l B (Tomlkit.skip q >>= fun _ => f ((u ++ t).takeWhile q)) (Tomlkit.skip q >>= fun _ => f' ((u ++ t').takeWhile q)) u e a := by
  intro x s1 h hl hlen hB
  rw [skip_bind] at h ⊢
  dsimp only at h ⊢
  have hm1 := (hm _ _ _ _ h).1.length_le
  simp only at hm1
  obtain ⟨h1, h2, h3⟩ := skip_upto (q := q) (u := u) (t := t) (by omega)
  have h4 : (u ++ t').dropWhile q = u.dropWhile q ++ t' ∧ (u ++ t').takeWhile q = u.takeWhile q := by
    by_cases hlt : t.length < ((u ++ t).dropWhile q).length
    · exact (skip_near hlt).2 t'
    · rcases hB with hB | hB
      · rcases hs hB with h' | h'
        · exact h3 t' h'
        · have := h' _ _ _ _ h hl
          simp only at this
          omega
      · omega
  rw [h1, h2] at h
  rw [h4.1, h4.2]
  exact hf x s1 h hl hlen hB

theorem Rel.stepN (n : Nat) : Rel t t' a' l False (Tomlkit.stepN n) (Tomlkit.stepN n) u e a := by
  intro y s1 h hl hlen hB
  cases h
  rcases hB with hB | hB
  · cases hB
  simp only [List.length_drop, List.length_append] at hB
  have hn : n ≤ u.length := by omega
  refine ⟨u.drop n, by rw [List.drop_append_of_le_length hn], ?_⟩
  show Res.ok () _ = _
  simp only [List.drop_append_of_le_length hn, List.take_append_of_le_length hn]

/-! ### strings -/

theorem peekUnicode_app {n : Nat} {u t t' : Str} (h : n < u.length) : peekUnicode n (u ++ t) = peekUnicode n (u ++ t') := by
  unfold peekUnicode
  dsimp only
  have h1 : ¬ (u ++ t).length ≤ n := by rw [List.length_append]; omega
  have h2 : ¬ (u ++ t').length ≤ n := by rw [List.length_append]; omega
  rw [List.take_append_of_le_length (by omega), List.take_append_of_le_length (by omega), if_neg h1, if_neg h2]

theorem Rel.parseEscapedChar (m : Bool) : Rel t t' a' l False (parseEscapedChar m) (parseEscapedChar m) u e a := by
  refine Rel.ne (mono_parseEscapedChar m) (fun h => h.elim) fun hu => ?_
  obtain ⟨c, r, rfl⟩ := List.exists_cons_of_ne_nil hu
  unfold Tomlkit.parseEscapedChar
  refine Rel.getSt (Rel.ite Iff.rfl (fun hc => ?_) fun hc => ?_)
  · intro x s1 h hl hlen hB
    rcases hB with hB | hB
    · cases hB
    rw [skip_bind, getSt_bind] at h ⊢
    have hmono : Mono (if (St.mk ((c :: r ++ t).dropWhile isWs) (e ++ (c :: r ++ t).takeWhile isWs) a []).atEnd = true then Tomlkit.fail .unexpectedEof
      else if (!hasNl ((c :: r ++ t).takeWhile isWs)) = true then Tomlkit.fail .invalidCharInString else Pure.pure [] : P Str) := by mono
    have hm := (hmono _ _ _ h).1.length_le
    simp only at hm
    obtain ⟨h1, h2⟩ := skip_near (u := c :: r) (t := t) (q := isWs) (by omega)
    dsimp only at h ⊢
    rw [(h2 t).1, (h2 t).2] at h
    rw [(h2 t').1, (h2 t').2]
    obtain ⟨d, w, hw⟩ := List.exists_cons_of_ne_nil h1
    rw [hw] at h ⊢
    rw [if_neg (by simp [St.atEnd])] at h ⊢
    by_cases hn : (!hasNl ((c :: r).takeWhile isWs)) = true
    · rw [if_pos hn] at h; cases h
    · rw [if_neg hn] at h ⊢
      cases h
      exact ⟨d :: w, rfl, rfl⟩
  · show Rel t t' a' l False (match escapedChar c with | some c => _ | none => _) (match escapedChar c with | some c => _ | none => _) _ _ _
    rcases escapedChar c with _ | x
    · refine Rel.ite Iff.rfl (fun hu => ?_) fun _ => Rel.fail _ _
      show Rel t t' a' l False (match peekUnicode (if c = 85 then 8 else 4) (r ++ t) with | some u => _ | none => _)
        (match peekUnicode (if c = 85 then 8 else 4) (r ++ t') with | some u => _ | none => _) _ _ _
      by_cases hr : (if c = 85 then 8 else 4) < r.length
      · rw [peekUnicode_app hr (t' := t')]
        rcases peekUnicode (if c = 85 then 8 else 4) (r ++ t') with _ | x
        · exact Rel.fail _ _
        · exact Rel.bind (Rel.stepN _) (fun _ => mono_pure _) (fun h => h.elim) fun _ _ _ _ _ => Rel.pure _
      · rcases peekUnicode (if c = 85 then 8 else 4) (r ++ t) with _ | x
        · exact Rel.fail _ _
        · intro y s1 h hl hlen hB
          rcases hB with hB | hB
          · cases hB
          have h : (Tomlkit.stepN ((if c = 85 then 8 else 4) + 1) >>= fun _ => Pure.pure [x]) ⟨c :: r ++ t, e, a, []⟩ = .ok y s1 := h
          rw [stepN_bind] at h
          cases h
          simp only [List.length_drop, List.length_append, List.length_cons] at hB
          omega
    · exact Rel.bind Rel.stepE (fun _ => mono_pure _) (fun h => h.elim) fun _ _ _ _ _ => Rel.pure _

theorem Rel.strLoop (d : StrType) : ∀ (n m : Nat) (v : Str) (esc : Bool) (u e : Str) (a : List Key), u.length < m →
    (B → StopsAt (· == d.unit) t') → Rel t t' a' l B (strLoop d n v esc) (strLoop d m v esc) u e a := by
  intro n
  induction n with
  | zero => intro m v esc u e a hm hB; exact Rel.raise _ _
  | succ n ih =>
    intro m v esc u e a hm hB
    rcases m with _ | m
    · omega
    refine Rel.ne (mono_strLoop _ _ _ _) (fun _ => eats_strLoop _ _ _ _) fun hu => ?_
    obtain ⟨c, r, rfl⟩ := List.exists_cons_of_ne_nil hu
    simp only [List.length_cons] at hm
    have hgo : ∀ (p : P Str) (v : Str → Str) esc, Rel t t' a' l False p p (c :: r) e a → Mono p → Eats p →
        Rel t t' a' l B (p >>= fun x => Tomlkit.strLoop d n (v x) esc) (p >>= fun x => Tomlkit.strLoop d m (v x) esc) (c :: r) e a := by
      intro p v esc hp hm1 he
      refine Rel.bind hp (fun _ => mono_strLoop _ _ _ _) (fun _ => .inr fun _ => eats_strLoop _ _ _ _) fun b w e1 a1 h => ?_
      have := he _ _ _ h rfl
      simp only [List.length_append, List.length_cons] at this
      exact ih m _ _ w e1 a1 (by omega) hB
    have hgoE : ∀ v esc, Rel t t' a' l B (Tomlkit.stepE >>= fun _ => Tomlkit.strLoop d n v esc) (Tomlkit.stepE >>= fun x => Tomlkit.strLoop d m v esc) (c :: r) e a := by
      intro v esc
      refine Rel.bind Rel.stepE (fun _ => mono_strLoop _ _ _ _) (fun _ => .inr fun _ => eats_strLoop _ _ _ _) fun b w e1 a1 h => ?_
      have := eats_stepE _ _ _ h rfl
      simp only [List.length_append, List.length_cons] at this
      exact ih m _ _ w e1 a1 (by omega) hB
    unfold Tomlkit.strLoop
    refine Rel.getSt (Rel.ite Iff.rfl (fun _ => Rel.fail _ _) fun _ => Rel.ite Iff.rfl (fun hc => ?_) fun _ =>
      Rel.ite Iff.rfl (fun _ => ?_) fun _ => Rel.ite Iff.rfl (fun _ => hgoE _ _) fun _ => hgoE _ _)
    · refine Rel.ite Iff.rfl (fun hml => ?_) fun _ => ?_
      · refine Rel.extract ?_
        refine Rel.look (f := fun close => if close.length < 3 then Tomlkit.strLoop d n (v ++ close) esc
          else if close.length = 3 then Pure.pure (.str d v e {})
          else if close.length ≥ 6 then Tomlkit.fail .invalidCharInString
          else Pure.pure (.str d (v ++ close.take (close.length - 3)) (e ++ close.take (close.length - 3)) {}))
          (f' := fun close => if close.length < 3 then Tomlkit.strLoop d m (v ++ close) esc
          else if close.length = 3 then Pure.pure (.str d v e {})
          else if close.length ≥ 6 then Tomlkit.fail .invalidCharInString
          else Pure.pure (.str d (v ++ close.take (close.length - 3)) (e ++ close.take (close.length - 3)) {}))
          (fun x => ?_) (fun h => .inl (hB h)) ?_
        · have := mono_strLoop d n (v ++ x) esc
          mono
        · refine Rel.ite Iff.rfl (fun _ => ?_) fun _ => Rel.ite Iff.rfl (fun _ => Rel.pure _) fun _ => Rel.ite Iff.rfl (fun _ => Rel.fail _ _) fun _ => Rel.pure _
          refine ih m _ _ _ _ _ ?_ hB
          simp only [Bool.and_eq_true, decide_eq_true_eq] at hc
          have hc2 : c = d.unit := hc.2
          rw [List.dropWhile_cons_of_pos (by simp [hc2])]
          have := (List.dropWhile_suffix (fun x => x == d.unit) (l := r)).length_le
          omega
      · exact Rel.extract (Rel.bind Rel.step (fun _ => mono_pure _) (fun _ => .inl trivial) fun _ _ _ _ _ => Rel.pure _)
    · refine hgo _ _ _ (Rel.parseEscapedChar _) (mono_parseEscapedChar _) ?_
      intro st x s h hl
      have := parseEscapedChar_does d.isMultiline st
      unfold Does P.wp at this
      rw [h] at this
      exact this.2.1

/-- at least `k` characters have to be consumed, so there are as many -/
theorem Rel.atLeast {p p' : P α} (k : Nat) (hk : ∀ st x s, p st = .ok x s → s.loss = [] → s.rest.length + k ≤ st.rest.length)
    (h : k ≤ u.length → Rel t t' a' l B p p' u e a) : Rel t t' a' l B p p' u e a := by
  intro x s1 h1 h2 h3 h4
  have := hk _ _ _ h1 h2
  simp only [List.length_append] at this
  exact h (by omega) x s1 h1 h2 h3 h4

theorem strBody_long (d : StrType) {st : St} {x : Item} {s : St} (h : strBody d st = .ok x s)
    (hl : s.loss = []) : s.rest.length + d.value.length ≤ st.rest.length := by
  obtain ⟨_, o, _, h1⟩ := keeps_fact (strBody_keeps d st) h hl
  rw [h1]
  simp only [List.length_append]
  omega

theorem Rel.strBody (d : StrType) (hB : B → StopsAt (· == d.unit) t') : Rel t t' a' l B (strBody d) (strBody d) u e a := by
  refine Rel.atLeast d.value.length (fun st x s h hl => strBody_long d h hl) fun hlen => ?_
  have hloop : ∀ w e1 a1, Rel t t' a' l B (Tomlkit.getSt >>= fun st => Tomlkit.strLoop d (st.rest.length + 1) [] false)
      (Tomlkit.getSt >>= fun st => Tomlkit.strLoop d (st.rest.length + 1) [] false) w e1 a1 := by
    intro w e1 a1
    refine Rel.getSt (Rel.strLoop d _ _ _ _ _ _ _ ?_ hB)
    simp only [List.length_append]; omega
  have hme : ∀ b : Unit, Mono (Tomlkit.getSt >>= fun st => Tomlkit.strLoop d (st.rest.length + 1) [] false) :=
    fun _ => Mono.bind mono_getSt fun _ => mono_strLoop _ _ _ _
  have hea : ∀ b : Unit, Eats (Tomlkit.getSt >>= fun st => Tomlkit.strLoop d (st.rest.length + 1) [] false) :=
    fun _ => Eats.right mono_getSt fun _ => eats_strLoop _ _ _ _
  unfold Tomlkit.strBody
  refine Rel.mark (Rel.bind (B' := False) ?_ hme (fun _ => .inr hea) fun _ _ _ _ _ => hloop _ _ _)
  unfold skipFirstNl
  refine Rel.ite Iff.rfl (fun hm => ?_) fun _ => Rel.pure _
  have h3 : 3 ≤ u.length := by cases d <;> first | exact hlen | cases hm
  rcases u with _ | ⟨c, _ | ⟨c2, r⟩⟩
  · simp at h3
  · simp at h3
  refine Rel.getSt (Rel.ite Iff.rfl (fun _ => Rel.stepE) fun _ => Rel.ite Iff.rfl (fun _ => ?_) fun _ => Rel.pure _)
  refine Rel.bind (B' := False) (Rel.stepN 2) (fun _ => by mono) (fun h => h.elim) fun _ w e1 a1 h => ?_
  have hw : r = w := List.append_cancel_right (St.mk.inj (Res.ok.inj h).2).1
  subst hw
  refine Rel.getSt ?_
  rcases r with _ | ⟨c3, r⟩
  · simp at h3
  · exact Rel.ite Iff.rfl (fun _ => Rel.fail _ _) fun _ => Rel.pure _

theorem unit_toggle (d : StrType) : d.toggle.unit = d.unit := by cases d <;> rfl

theorem Rel.parseString (d : StrType) (hB : B → StopsAt (· == d.unit) t') : Rel t t' a' l B (parseString d) (parseString d) u e a := by
  refine Rel.ne (mono_parseString d) (fun _ => eats_parseString d) fun hu => ?_
  obtain ⟨c, r, rfl⟩ := List.exists_cons_of_ne_nil hu
  unfold Tomlkit.parseString
  refine Rel.getSt (Rel.ite Iff.rfl (fun _ => Rel.fail _ _) fun _ => ?_)
  have hm := mono_strBody d
  have hm2 := mono_strBody d.toggle
  refine Rel.bind (B' := False) Rel.stepE (fun _ => by mono) (fun _ => .inr fun _ => ?_) fun _ w e1 a1 h => ?_
  · intro st x s h hl
    rw [getSt_bind] at h
    by_cases hc : st.cur = d.unit
    · rw [if_pos hc] at h
      exact eats_step_at (by rw [hc]; exact unit_ne_zero d) (fun _ => by mono) h
    · rw [if_neg hc] at h
      exact eats_strBody _ _ _ _ h hl
  · intro x s1 h hl hlen hB'
    have h0 := h
    rcases w with _ | ⟨c2, w⟩
    · -- nothing left: impossible
      exfalso
      rw [getSt_bind] at h
      have hlt : s1.rest.length < t.length := by
        by_cases hc : (St.mk ([] ++ t) e1 a1 []).cur = d.unit
        · rw [if_pos hc] at h
          exact eats_step_at (by rw [hc]; exact unit_ne_zero d) (fun _ => by mono) h
        · rw [if_neg hc] at h
          exact eats_strBody _ _ _ _ h hl
      omega
    refine Rel.getSt (Rel.ite Iff.rfl (fun hc => ?_) fun _ => Rel.strBody d hB) x s1 h0 hl hlen hB'
    refine Rel.bind (B' := True) Rel.step (fun _ => by mono) (fun _ => .inl trivial) fun _ w e1 a1 h => ?_
    rcases w with _ | ⟨c3, w⟩
    · intro x s1 h hl hlen hB'
      rw [getSt_bind] at h ⊢
      by_cases hc : (St.mk ([] ++ t) e1 a1 []).cur ≠ d.unit
      · rw [if_pos hc] at h
        cases h
        rcases hB' with hB' | hB'
        · have hs := hB hB'
          have hc' : (St.mk ([] ++ t') e1 a' l).cur ≠ d.unit := by
            rcases t' with _ | ⟨x, y⟩
            · exact fun h => unit_ne_zero d h.symm
            · have := hs x y rfl
              simpa using this
          rw [if_pos hc']
          exact ⟨[], rfl, rfl⟩
        · simp at hB'
      · exfalso
        rw [if_neg hc] at h
        have := Eats.right mono_stepE (fun _ => eats_strBody d.toggle) _ _ _ h hl
        simp only [List.nil_append] at this
        omega
    · refine Rel.getSt (Rel.ite Iff.rfl (fun _ => Rel.pure _) fun _ => ?_)
      refine Rel.bind (B' := False) Rel.stepE (fun _ => by mono) (fun _ => .inr fun _ => eats_strBody _) fun _ _ _ _ _ => ?_
      exact Rel.strBody _ (by rw [unit_toggle]; exact hB)

/-! ### keys -/

theorem Rel.parseKey : ∀ (n m : Nat) (u e : Str) (a : List Key), u.length < m → Rel t t' a' l False (parseKey n) (parseKey m) u e a := by
  intro n
  induction n with
  | zero => intro m u e a _; exact Rel.raise _ _
  | succ n ih =>
    intro m u e a hm
    rcases m with _ | m
    · omega
    have ihm := mono_parseKey n
    have hs1 := mono_parseString .slb
    have hs2 := mono_parseString .sll
    -- after a part
    have hrest : ∀ (key : SKey) (w e : Str) (a : List Key), w.length ≤ u.length → Rel t t' a' l False (do
        let st ← Tomlkit.getSt
        if st.cur = 46 then
          Tomlkit.step
          let k ← Tomlkit.parseKey n
          return (Key.single key).concat k
        else return .single key) (do
        let st ← Tomlkit.getSt
        if st.cur = 46 then
          Tomlkit.step
          let k ← Tomlkit.parseKey m
          return (Key.single key).concat k
        else return .single key) w e a := by
      intro key w e a hw
      refine Rel.ne (by mono) (fun h => h.elim) fun hu => ?_
      obtain ⟨c, r, rfl⟩ := List.exists_cons_of_ne_nil hu
      refine Rel.getSt (Rel.ite Iff.rfl (fun _ => ?_) fun _ => Rel.pure _)
      refine Rel.bind (B' := True) Rel.step (fun _ => by mono) (fun h => h.elim) fun _ w2 e1 a1 h => ?_
      have hw2 : r = w2 := List.append_cancel_right (St.mk.inj (Res.ok.inj h).2).1
      subst hw2
      simp only [List.length_cons] at hw
      exact Rel.bind (B' := False) (ih m r _ _ (by omega)) (fun _ => by mono) (fun h => h.elim) fun _ _ _ _ _ => Rel.pure _
    unfold Tomlkit.parseKey
    refine Rel.mark (Rel.bind (B' := False) (Rel.skip _) (fun _ => ?_) (fun h => h.elim) fun _ w e1 a1 h => ?_)
    · refine Mono.bind mono_getSt fun st => Mono.ite (Mono.bind mono_extract fun _ => Mono.bind (mono_parseString _) fun _ => ?_) ?_
      · mono
      · mono
    have hw : w.length ≤ u.length := by
      have := (mono_skip _ _ _ _ h).1.length_le
      simp only [List.length_append] at this
      omega
    refine Rel.ne ?_ (fun h => h.elim) fun hu => ?_
    · refine Mono.bind mono_getSt fun st => Mono.ite (Mono.bind mono_extract fun _ => Mono.bind (mono_parseString _) fun _ => ?_) ?_
      · mono
      · mono
    obtain ⟨c, r, rfl⟩ := List.exists_cons_of_ne_nil hu
    refine Rel.getSt (Rel.ite Iff.rfl (fun _ => ?_) fun _ => ?_)
    · refine Rel.extract (Rel.bind (B' := False) (Rel.parseString _ fun h => h.elim) (fun _ => by mono) (fun h => h.elim) fun i w e2 a2 h => ?_)
      have hw2 := (mono_parseString _ _ _ _ h).1.length_le
      simp only [List.length_append] at hw2
      rcases i with _ | _ | _ | _ | _ | _ | _ | _ | _ | _ | _ | _ | _ | _
      all_goals first | exact Rel.raise _ _ | skip
      refine Rel.ite Iff.rfl (fun _ => Rel.fail _ _) fun _ => ?_
      refine Rel.mark (Rel.bind (B' := False) (Rel.skip _) (fun _ => by mono) (fun h => h.elim) fun _ w e1 a1 h => ?_)
      have hw3 := (mono_skip _ _ _ _ h).1.length_le
      simp only [List.length_append] at hw3
      exact Rel.extract (hrest _ _ _ _ (by omega))
    · refine Rel.bind (B' := False) (Rel.skip _) (fun _ => by mono) (fun h => h.elim) fun _ w e1 a1 h => ?_
      have hw3 := (mono_skip _ _ _ _ h).1.length_le
      simp only [List.length_append] at hw3
      exact Rel.extract (Rel.ite Iff.rfl (fun _ => Rel.fail _ _) fun _ => Rel.ite Iff.rfl (fun _ => Rel.fail _ _) fun _ => hrest _ _ _ _ (by omega))

theorem Rel.parseKeyHere : Rel t t' a' l False parseKeyHere parseKeyHere u e a := by
  unfold Tomlkit.parseKeyHere
  refine Rel.getSt (Rel.parseKey _ _ _ _ _ ?_)
  simp only [List.length_append]; omega

theorem dropWhile_drop (q : Chr → Bool) (l : Str) : l.dropWhile q = l.drop (l.takeWhile q).length := by
  induction l with
  | nil => rfl
  | cons c l ih =>
    by_cases hc : q c = true
    · rw [List.dropWhile_cons_of_pos hc, List.takeWhile_cons_of_pos hc]; exact ih
    · rw [List.dropWhile_cons_of_neg hc, List.takeWhile_cons_of_neg hc]; rfl

theorem Rel.parseSep : Rel t t' a' l False parseSep parseSep u e a := by
  unfold Tomlkit.parseSep
  refine Rel.mark ?_
  intro x s1 h hl hlen hB
  rcases hB with hB | hB
  · cases hB
  rw [getSt_bind] at h ⊢
  dsimp only at h ⊢
  have hk : ∃ k, s1.rest = (u ++ t).drop k ∧ k = ((u ++ t).takeWhile isKvSep).length := by
    by_cases h1 : (!((u ++ t).takeWhile isKvSep).contains 61) = true
    · rw [if_pos h1] at h; cases h
    rw [if_neg h1] at h
    split at h
    · cases h
    · cases h
      exact ⟨_, rfl, rfl⟩
  obtain ⟨k, hk1, hk2⟩ := hk
  have hd : (u ++ t).dropWhile isKvSep = s1.rest := by
    rw [hk1, hk2]
    exact dropWhile_drop _ _
  obtain ⟨_, h2⟩ := skip_near (q := isKvSep) (u := u) (t := t) (by rw [hd]; exact hB)
  rw [(h2 t).2] at h
  rw [(h2 t').2]
  by_cases h1 : (!(u.takeWhile isKvSep).contains 61) = true
  · rw [if_pos h1] at h; cases h
  rw [if_neg h1] at h ⊢
  by_cases h3 : ((u.takeWhile isKvSep).drop (((u.takeWhile isKvSep).takeWhile (· != 61)).length + 1)).contains 61 = true
  · rw [if_pos h3] at h; cases h
  rw [if_neg h3] at h ⊢
  rw [stepN_bind] at h ⊢
  cases h
  have hn : (u.takeWhile isKvSep).length ≤ u.length := (List.takeWhile_prefix _).length_le
  refine ⟨u.drop (u.takeWhile isKvSep).length, by rw [List.drop_append_of_le_length hn], ?_⟩
  show Res.ok _ _ = _
  simp only [List.drop_append_of_le_length hn, List.take_append_of_le_length hn]

end
end Tomlkit
