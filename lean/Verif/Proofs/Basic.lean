import Verif.Model.Parser
/-! Equations of the parser monad and of the elementary steps. -/
namespace Tomlkit

theorem P.bind_def {α β : Type} (m : P α) (f : α → P β) (st : St) :
    (m >>= f) st = match m st with
      | .ok a st' => f a st'
      | .err e st' => .err e st' := rfl

@[simp] theorem P.pure_def {α : Type} (a : α) (st : St) : (pure a : P α) st = .ok a st := rfl

theorem P.bind_ok {α β : Type} {m : P α} {f : α → P β} {st st' : St} {b : β} :
    (m >>= f) st = .ok b st' ↔ ∃ a s1, m st = .ok a s1 ∧ f a s1 = .ok b st' := by
  rw [P.bind_def]
  cases h : m st with
  | ok a s1 =>
    simp
    exact ⟨fun h => ⟨_, _, ⟨rfl, rfl⟩, h⟩, by rintro ⟨_, _, ⟨rfl, rfl⟩, h⟩; exact h⟩
  | err e s1 => simp

theorem P.bind_err {α β : Type} {m : P α} {f : α → P β} {st st' : St} {e : Err} :
    (m >>= f) st = .err e st' ↔ m st = .err e st' ∨ ∃ a s1, m st = .ok a s1 ∧ f a s1 = .err e st' := by
  rw [P.bind_def]
  cases h : m st with
  | ok a s1 =>
    simp
    exact ⟨fun h => ⟨_, _, ⟨rfl, rfl⟩, h⟩, by rintro ⟨_, _, ⟨rfl, rfl⟩, h⟩; exact h⟩
  | err e s1 => simp

@[simp] theorem getSt_bind {β : Type} (f : St → P β) (st : St) : (getSt >>= f) st = f st st := rfl
@[simp] theorem mark_bind {β : Type} (f : Unit → P β) (st : St) :
    (mark >>= f) st = f () { st with ext := [] } := rfl
@[simp] theorem extract_bind {β : Type} (f : Str → P β) (st : St) : (extract >>= f) st = f st.ext st := rfl
@[simp] theorem skip_bind {β : Type} (p) (f : Unit → P β) (st : St) :
    (skip p >>= f) st = f () { st with rest := st.rest.dropWhile p, ext := st.ext ++ st.rest.takeWhile p } := rfl
@[simp] theorem stepN_bind {β : Type} (n) (f : Unit → P β) (st : St) :
    (stepN n >>= f) st = f () { st with rest := st.rest.drop n, ext := st.ext ++ st.rest.take n } := rfl
@[simp] theorem pure_bind' {α β : Type} (a : α) (f : α → P β) (st : St) : ((pure a : P α) >>= f) st = f a st := rfl
@[simp] theorem note_bind {β : Type} (b l) (f : Unit → P β) (st : St) :
    (note b l >>= f) st = f () (if b then { st with loss := st.loss ++ [l] } else st) := rfl
@[simp] theorem fail_bind {α β : Type} (k) (f : α → P β) (st : St) :
    (fail k >>= f) st = .err (.parse k st.rest.length) st := rfl
@[simp] theorem fail_apply {α : Type} (k) (st : St) : (fail k : P α) st = .err (.parse k st.rest.length) st := rfl
@[simp] theorem raise_apply {α : Type} (e) (st : St) : (raise e : P α) st = .err e st := rfl
@[simp] theorem extract_apply (st : St) : extract st = .ok st.ext st := rfl
@[simp] theorem mark_apply (st : St) : mark st = .ok () { st with ext := [] } := rfl
@[simp] theorem getSt_apply (st : St) : getSt st = .ok st st := rfl

@[simp] theorem stepE_apply (c d r e a l) : stepE ⟨c :: d :: r, e, a, l⟩ = .ok () ⟨d :: r, e ++ [c], a, l⟩ := rfl
@[simp] theorem step_apply (c r e a l) : step ⟨c :: r, e, a, l⟩ = .ok () ⟨r, e ++ [c], a, l⟩ := rfl
@[simp] theorem step_nil (e a l) : step ⟨[], e, a, l⟩ = .ok () ⟨[], e, a, l⟩ := rfl
@[simp] theorem step_bind_nil {β : Type} (f : Unit → P β) (e a l) :
    (step >>= f) ⟨[], e, a, l⟩ = f () ⟨[], e, a, l⟩ := rfl
@[simp] theorem stepN_apply (n st) :
    stepN n st = .ok () { st with rest := st.rest.drop n, ext := st.ext ++ st.rest.take n } := rfl
@[simp] theorem skip_apply (p st) :
    skip p st = .ok () { st with rest := st.rest.dropWhile p, ext := st.ext ++ st.rest.takeWhile p } := rfl

/-- the state after one step over an existing character -/
@[simp] theorem step_bind_cons {β : Type} (f : Unit → P β) (c r e a l) :
    (step >>= f) ⟨c :: r, e, a, l⟩ = f () ⟨r, e ++ [c], a, l⟩ := rfl
@[simp] theorem stepE_bind_cons {β : Type} (f : Unit → P β) (c d r e a l) :
    (stepE >>= f) ⟨c :: d :: r, e, a, l⟩ = f () ⟨d :: r, e ++ [c], a, l⟩ := rfl

theorem stepE_bind_cons' {β : Type} (f : Unit → P β) (c r e a l) (h : r ≠ []) :
    (stepE >>= f) ⟨c :: r, e, a, l⟩ = f () ⟨r, e ++ [c], a, l⟩ := by
  cases r with
  | nil => exact absurd rfl h
  | cons d r => rfl

@[simp] theorem St.cur_cons (c r e a l) : (St.mk (c :: r) e a l).cur = c := rfl
@[simp] theorem St.cur_nil (e a l) : (St.mk [] e a l).cur = 0 := rfl
@[simp] theorem St.atEnd_cons (c r e a l) : (St.mk (c :: r) e a l).atEnd = false := rfl
@[simp] theorem St.atEnd_nil (e a l) : (St.mk [] e a l).atEnd = true := rfl

end Tomlkit
