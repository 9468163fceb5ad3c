import Verif.Proofs.AppendErr
import Verif.Proofs.Basic
/-!
# Weakest preconditions for parser steps
-/
namespace Tomlkit

/-- `Q` holds of the result, `E` of the failure -/
def P.wp {α : Type} (m : P α) (Q : α → St → Prop) (E : Err → St → Prop) (st : St) : Prop :=
  match m st with
  | .ok a s => Q a s
  | .err e s => E e s

section
variable {α β : Type} {Q Q' : α → St → Prop} {E E' : Err → St → Prop} {st : St}

theorem wp_mono {m : P α} (h : m.wp Q E st) (hq : ∀ a s, Q a s → Q' a s) (he : ∀ e s, E e s → E' e s) :
    m.wp Q' E' st := by
  unfold P.wp at *
  cases hm : m st <;> rw [hm] at h
  · exact hq _ _ h
  · exact he _ _ h

theorem wp_bind {m : P β} {f : β → P α} (h : m.wp (fun b s => (f b).wp Q E s) E st) : (m >>= f).wp Q E st := by
  unfold P.wp at *
  rw [P.bind_def]
  cases hm : m st <;> rw [hm] at h <;> exact h

theorem wp_pure {a : α} (h : Q a st) : (pure a : P α).wp Q E st := h
theorem wp_getSt {Q : St → St → Prop} (h : Q st st) : getSt.wp Q E st := h
theorem wp_mark {Q : Unit → St → Prop} (h : Q () { st with ext := [] }) : mark.wp Q E st := h
theorem wp_extract {Q : Str → St → Prop} (h : Q st.ext st) : extract.wp Q E st := h
theorem wp_skip {p : Chr → Bool} {Q : Unit → St → Prop}
    (h : Q () { st with rest := st.rest.dropWhile p, ext := st.ext ++ st.rest.takeWhile p }) : (skip p).wp Q E st := h
theorem wp_stepN {n : Nat} {Q : Unit → St → Prop}
    (h : Q () { st with rest := st.rest.drop n, ext := st.ext ++ st.rest.take n }) : (stepN n).wp Q E st := h
theorem wp_fail {k : PKind} (h : E (.parse k st.rest.length) st) : (fail k : P α).wp Q E st := h
theorem wp_raise {e : Err} (h : E e st) : (raise e : P α).wp Q E st := h
theorem wp_note {b : Bool} {l : Loss} {Q : Unit → St → Prop}
    (h : Q () (if b then { st with loss := st.loss ++ [l] } else st)) : (note b l).wp Q E st := h
theorem wp_step {Q : Unit → St → Prop} (h : Q () { st with rest := st.rest.drop 1, ext := st.ext ++ st.rest.take 1 }) :
    step.wp Q E st := by
  unfold P.wp step
  rcases hs : st.rest with _ | ⟨c, r⟩
  · cases st; simp only at hs; subst hs; simpa using h
  · cases st; simp only at hs; subst hs; simpa using h
theorem wp_stepE {Q : Unit → St → Prop}
    (h : 1 < st.rest.length → Q () { st with rest := st.rest.drop 1, ext := st.ext ++ st.rest.take 1 })
    (h0 : st.rest.length ≤ 1 → ∀ s, s.rest = [] → s.aot = st.aot → E (.parse .unexpectedEof 0) s) : stepE.wp Q E st := by
  unfold P.wp stepE
  rcases hs : st.rest with _ | ⟨c, _ | ⟨d, r⟩⟩
  · exact h0 (by simp [hs]) _ hs rfl
  · exact h0 (by simp [hs]) _ rfl rfl
  · cases st; simp only at hs; subst hs; simpa using h (by simp)
theorem wp_restoring {m : P α} (h : m.wp Q (fun e s => E e { s with rest := st.rest, ext := st.ext }) st) :
    (restoring m).wp Q E st := by
  unfold P.wp restoring at *
  cases hm : m st <;> rw [hm] at h <;> exact h
theorem wp_peeking {m : P α} (h : m.wp (fun a _ => Q a st) (fun e _ => E e st) st) : (peeking m).wp Q E st := by
  unfold P.wp peeking at *
  cases hm : m st <;> rw [hm] at h <;> exact h
theorem wp_lift {x : Except Err α} (h : ∀ a, x = .ok a → Q a st) (he : ∀ e, x = .error e → E e st) :
    (lift x).wp Q E st := by
  unfold P.wp lift
  cases x
  · exact he _ rfl
  · exact h _ rfl
theorem wp_ite {c : Prop} [Decidable c] {m m' : P α} (h : c → m.wp Q E st) (h' : ¬ c → m'.wp Q E st) :
    (if c then m else m').wp Q E st := by
  split
  · exact h ‹_›
  · exact h' ‹_›
end

/-- the text contains ten digits in a row -/
def LongNumber (r : Str) : Prop := ∃ p d q, r = p ++ d ++ q ∧ 10 ≤ d.length ∧ ∀ c ∈ d, isDigit c = true

theorem LongNumber.mono {r r' : Str} (h : LongNumber r) (hs : r <:+: r') : LongNumber r' := by
  obtain ⟨p, d, q, rfl, h1, h2⟩ := h
  obtain ⟨a, b, rfl⟩ := hs
  exact ⟨a ++ p, d, q ++ b, by simp, h1, h2⟩

/-- a failure that a text can cause: a parse error at a position within the text, an `OverflowError` for a year of
ten or more digits, or one of the few other exceptions -/
def OkErr (r : Str) (e : Err) : Prop :=
  (∃ k n, e = .parse k n ∧ n ≤ r.length) ∨ (e = .overflowError ∧ LongNumber r) ∨ AppErr e

/-- What is common to all steps: the text is only consumed, never invented, and the stack of arrays is kept. `k` is
the number of characters consumed at least. -/
def Ctr {α : Type} (k : Nat) (G : α → Prop) (st : St) (a : α) (s : St) : Prop :=
  s.rest <:+ st.rest ∧ s.rest.length + k ≤ st.rest.length ∧ s.aot = st.aot ∧ G a

/-- the same for failures -/
def CtrE (st : St) (e : Err) (s : St) : Prop :=
  s.rest <:+ st.rest ∧ s.aot = st.aot ∧ OkErr st.rest e

/-- `m` satisfies the contract from `st` -/
def Does {α : Type} (m : P α) (k : Nat) (G : α → Prop) (st : St) : Prop := m.wp (Ctr k G st) (CtrE st) st

theorem OkErr.mono {r r' : Str} {e : Err} (h : OkErr r e) (hs : r <:+ r') : OkErr r' e := by
  rcases h with ⟨k, n, h, hr⟩ | ⟨h, hl⟩ | h
  · exact Or.inl ⟨k, n, h, Nat.le_trans hr hs.length_le⟩
  · exact Or.inr (Or.inl ⟨h, hl.mono hs.isInfix⟩)
  · exact Or.inr (Or.inr h)

/-- the position reached after some steps, seen from the start -/
structure Adv (st s : St) (k : Nat) : Prop where
  suf : s.rest <:+ st.rest
  len : s.rest.length + k ≤ st.rest.length
  aot : s.aot = st.aot

theorem Adv.refl (st : St) : Adv st st 0 := ⟨List.suffix_refl _, Nat.le_refl _, rfl⟩

theorem Adv.of_suf {st s : St} {r e l} {k : Nat} (h : Adv st s k) (hr : r <:+ s.rest) : Adv st ⟨r, e, s.aot, l⟩ k :=
  ⟨hr.trans h.suf, Nat.le_trans (Nat.add_le_add_right hr.length_le _) h.len, h.aot⟩

theorem Adv.trans {a b c : St} {j k : Nat} (h : Adv a b j) (h2 : Adv b c k) : Adv a c (j + k) :=
  ⟨h2.suf.trans h.suf, by have := h.len; have := h2.len; omega, h2.aot.trans h.aot⟩

theorem Adv.weaken {a b : St} {j k : Nat} (h : Adv a b j) (hk : k ≤ j) : Adv a b k :=
  ⟨h.suf, by have := h.len; omega, h.aot⟩

theorem Adv.le {a b : St} {j : Nat} (h : Adv a b j) : b.rest.length ≤ a.rest.length := by have := h.len; omega

theorem Adv.err {st s : St} {j : Nat} (h : Adv st s j) {e : Err} {s' : St} (he : CtrE s e s') : CtrE st e s' :=
  ⟨he.1.trans h.suf, he.2.1.trans h.aot, he.2.2.mono h.suf⟩

theorem Adv.ctr {α : Type} {st s : St} {j k i : Nat} {G : α → Prop} (h : Adv st s j) {a : α} {s' : St}
    (hc : Ctr k G s a s') (hi : i ≤ j + k) : Ctr i G st a s' :=
  ⟨hc.1.trans h.suf, by have := h.len; have := hc.2.1; omega, hc.2.2.1.trans h.aot, hc.2.2.2⟩

theorem Ctr.adv {α : Type} {k : Nat} {G : α → Prop} {st s : St} {a : α} (h : Ctr k G st a s) : Adv st s k :=
  ⟨h.1, h.2.1, h.2.2.1⟩

theorem Adv.fail {α : Type} {st s : St} {j : Nat} (h : Adv st s j) {k : PKind} {Q : α → St → Prop} :
    (Tomlkit.fail k : P α).wp Q (CtrE st) s :=
  ⟨h.suf, h.aot, Or.inl ⟨k, _, rfl, h.le⟩⟩

/-- a call of a step with a contract -/
theorem Adv.call {α : Type} {st s : St} {j k : Nat} (h : Adv st s j) {m : P α} {G : α → Prop} (hm : Does m k G s)
    {Q : α → St → Prop} (hq : ∀ a s', Adv st s' (j + k) → G a → Q a s') : m.wp Q (CtrE st) s := by
  refine wp_mono hm ?_ ?_
  · intro a s' hc; exact hq a s' (h.trans hc.adv) hc.2.2.2
  · intro e s' he; exact h.err he

/-- the last call of a step -/
theorem Adv.last {α : Type} {st s : St} {j k i : Nat} (h : Adv st s j) {m : P α} {G G' : α → Prop} (hm : Does m k G s)
    (hi : i ≤ j + k) (hG : ∀ a, G a → G' a) : m.wp (Ctr i G' st) (CtrE st) s := by
  refine wp_mono hm ?_ ?_
  · intro a s' hc
    have := h.ctr hc hi
    exact ⟨this.1, this.2.1, this.2.2.1, hG a this.2.2.2⟩
  · intro e s' he; exact h.err he

theorem Adv.ret {α : Type} {st s : St} {j i : Nat} (h : Adv st s j) {a : α} {G : α → Prop} (hi : i ≤ j) (hG : G a) :
    (pure a : P α).wp (Ctr i G st) (CtrE st) s :=
  ⟨h.suf, (h.weaken hi).len, h.aot, hG⟩

theorem Adv.skip {st s : St} {j : Nat} (h : Adv st s j) (p : Chr → Bool) {e l} :
    Adv st ⟨s.rest.dropWhile p, e, s.aot, l⟩ j := h.of_suf (List.dropWhile_suffix p)

theorem Adv.drop {st s : St} {j : Nat} (h : Adv st s j) (n : Nat) {e l} :
    Adv st ⟨s.rest.drop n, e, s.aot, l⟩ j := h.of_suf (List.drop_suffix n _)

theorem Adv.drop' {st s : St} {j : Nat} (h : Adv st s j) (n : Nat) (hn : n ≤ s.rest.length) {e l} :
    Adv st ⟨s.rest.drop n, e, s.aot, l⟩ (j + n) :=
  ⟨(List.drop_suffix n _).trans h.suf, by have := h.len; simp; omega, h.aot⟩

theorem Adv.same {st s : St} {j : Nat} (h : Adv st s j) {e l} : Adv st ⟨s.rest, e, s.aot, l⟩ j :=
  h.of_suf (List.suffix_refl _)

theorem Adv.stepE {st s : St} {j : Nat} (h : Adv st s j) {Q : Unit → St → Prop}
    (hq : ∀ s', Adv st s' (j + 1) → s'.rest = s.rest.drop 1 → Q () s') : Tomlkit.stepE.wp Q (CtrE st) s := by
  refine wp_stepE ?_ ?_
  · intro hl; exact hq _ (h.drop' 1 (by omega)) rfl
  · intro _ s' hs ha
    refine ⟨?_, ha.trans h.aot, Or.inl ⟨_, 0, rfl, Nat.zero_le _⟩⟩
    rw [hs]; exact List.nil_suffix

theorem Adv.step {st s : St} {j : Nat} (h : Adv st s j) {Q : Unit → St → Prop} {E}
    (hq : ∀ s', Adv st s' (j + min 1 s.rest.length) → s'.rest = s.rest.drop 1 → Q () s') : Tomlkit.step.wp Q E s := by
  refine wp_step (hq _ ?_ rfl)
  exact ⟨(List.drop_suffix 1 _).trans h.suf, by have := h.len; simp; omega, h.aot⟩

theorem Adv.note {st s : St} {j : Nat} (h : Adv st s j) {b : Bool} {l : Loss} {Q : Unit → St → Prop} {E}
    (hq : ∀ s', Adv st s' j → s'.rest = s.rest → Q () s') : (Tomlkit.note b l).wp Q E s := by
  refine wp_note (hq _ ?_ ?_)
  · split
    · exact h.same
    · exact h
  · split <;> rfl

theorem cur_ne_zero_length {s : St} {c : Chr} (h : s.cur = c) (hc : c ≠ 0) : 1 ≤ s.rest.length := by
  unfold St.cur at h
  rcases hs : s.rest with _ | ⟨d, r⟩
  · rw [hs] at h; exact absurd h.symm hc
  · simp

end Tomlkit
