import Verif.Model.Source
import Verif.Proofs.Tables
/-!
# C35: look-ahead does not consume; and the abstraction used by the parser model is faithful to source.py
-/
namespace Tomlkit

/-- the invariant of the object: the iterator stands behind the index, `_current` is the character at the index -/
structure Cur.Ok (text : Str) (s : Cur) : Prop where
  chars : s.chars = enumFrom (s.idx + 1) (text.drop (s.idx + 1))
  current : s.current = text[s.idx]?
  idx : s.idx ≤ text.length
  marker : s.marker ≤ s.idx

/-- the abstract state of the parser model: the text from the index on, and the text between marker and index -/
def Cur.abs (text : Str) (s : Cur) (aot : List Key) (loss : List Loss) : St :=
  ⟨text.drop s.idx, (text.take s.idx).drop s.marker, aot, loss⟩

theorem enumFrom_length (i : Nat) (s : Str) : (enumFrom i s).length = s.length := by
  induction s generalizing i with
  | nil => rfl
  | cons c r ih => simp [enumFrom, ih]

@[simp] theorem S.bind_ok {α β : Type} {m : S α} {f : α → S β} {t : Str} {s s' : Cur} {a : α} (h : m t s = .ok a s') :
    (m >>= f) t s = f a t s' := by
  show S.bind m f t s = _
  unfold S.bind; rw [h]

theorem S.bind_err {α β : Type} {m : S α} {f : α → S β} {t : Str} {s s' : Cur} {e : Err} (h : m t s = .err e s') :
    (m >>= f) t s = .err e s' := by
  show S.bind m f t s = _
  unfold S.bind; rw [h]

theorem S.get_bind {β : Type} (f : Cur → S β) (t : Str) (s : Cur) : (S.get >>= f) t s = f s t s := rfl
theorem S.pure_def {α : Type} (a : α) (t : Str) (s : Cur) : (pure a : S α) t s = .ok a s := rfl

/-- `rest` is empty or starts with the current character -/
theorem Cur.Ok.rest {text : Str} {s : Cur} (h : s.Ok text) :
    (s.current = none ∧ text.drop s.idx = [] ∧ s.idx = text.length ∧ s.chars = []) ∨
    ∃ c r, s.current = some c ∧ text.drop s.idx = c :: r ∧ s.chars = enumFrom (s.idx + 1) r ∧ s.idx < text.length := by
  by_cases hlt : s.idx < text.length
  · refine .inr ⟨text[s.idx], text.drop (s.idx + 1), ?_, ?_, h.chars, hlt⟩
    · rw [h.current]; exact List.getElem?_eq_getElem hlt
    · exact List.drop_eq_getElem_cons hlt
  · have : s.idx = text.length := by have := h.idx; omega
    refine .inl ⟨?_, ?_, this, ?_⟩
    · rw [h.current, this]; simp
    · rw [this]; simp
    · rw [h.chars, List.drop_of_length_le (by omega)]; rfl

/-- the object after `Source(text)` -/
theorem init_ok (text : Str) : (Cur.init text).Ok text ∧ ∀ a l, (Cur.init text).abs text a l = ⟨text, [], a, l⟩ := by
  cases text with
  | nil => exact ⟨⟨rfl, rfl, Nat.le_refl _, Nat.le_refl _⟩, fun a l => rfl⟩
  | cons c r => exact ⟨⟨rfl, rfl, Nat.zero_le _, Nat.le_refl _⟩, fun a l => rfl⟩

theorem cur_abs {text : Str} {s : Cur} (h : s.Ok text) (a : List Key) (l : List Loss) :
    s.char = (s.abs text a l).cur ∧ s.atEnd = (s.abs text a l).atEnd := by
  unfold Cur.char Cur.atEnd St.cur St.atEnd Cur.abs
  rcases h.rest with ⟨h1, h2, _⟩ | ⟨c, r, h1, h2, _⟩ <;> rw [h1, h2] <;> exact ⟨rfl, rfl⟩

theorem take_succ_drop {text : Str} {i m : Nat} {c : Chr} {r : Str} (hm : m ≤ i) (h : text.drop i = c :: r) :
    (text.take (i + 1)).drop m = (text.take i).drop m ++ [c] := by
  have hi : i < text.length := by
    have := congrArg List.length h
    simp at this; omega
  have hc : text[i] = c := by
    rw [List.drop_eq_getElem_cons hi] at h; exact (List.cons.inj h).1
  have hl : (text.take i).length = i := by simp; omega
  rw [List.take_succ_eq_append_getElem hi, hc, List.drop_append_of_le_length (by omega)]

/-- `inc()` moves the abstraction by one character and tells whether there is another one -/
theorem inc_abs {text : Str} {s : Cur} (h : s.Ok text) (a : List Key) (l : List Loss) :
    ∃ s', S.inc text s = .ok (!s'.atEnd) s' ∧ s'.Ok text ∧ s'.marker = s.marker ∧
      step (s.abs text a l) = .ok () (s'.abs text a l) := by
  refine ⟨s.next text, ?_, ?_⟩
  · unfold S.inc Cur.next Cur.atEnd
    cases s.chars <;> rfl
  · rcases h.rest with ⟨h1, h2, h3, h4⟩ | ⟨c, r, h1, h2, h3, h4⟩
    · unfold Cur.next; rw [h4]
      refine ⟨⟨?_, ?_, Nat.le_refl _, ?_⟩, rfl, ?_⟩
      · dsimp only; rw [List.drop_of_length_le (by omega)]; rfl
      · simp
      · have := h.marker; dsimp only; omega
      · unfold step Cur.abs; rw [h2, h3]; simp
    · unfold Cur.next; rw [h3]
      have hr : text.drop (s.idx + 1) = r := by
        rw [List.drop_eq_getElem_cons h4] at h2; exact (List.cons.inj h2).2
      have hm := h.marker
      rcases r with _ | ⟨d, r⟩
      · have hl : text.length = s.idx + 1 := by
          have := congrArg List.length h2
          simp at this; omega
        refine ⟨⟨?_, ?_, Nat.le_refl _, ?_⟩, rfl, ?_⟩
        · dsimp only [enumFrom]; rw [List.drop_of_length_le (by omega)]; rfl
        · simp [enumFrom]
        · dsimp only [enumFrom]; omega
        · unfold step Cur.abs; rw [h2]; dsimp only [enumFrom]
          rw [← take_succ_drop hm h2, ← hl]; simp
      · have hlt : s.idx + 1 < text.length := by
          have := congrArg List.length h2
          simp at this; omega
        rw [List.drop_eq_getElem_cons hlt] at hr
        obtain ⟨e1, e2⟩ := List.cons.inj hr
        refine ⟨⟨?_, ?_, ?_, ?_⟩, rfl, ?_⟩
        · dsimp only [enumFrom]; rw [e2]
        · dsimp only [enumFrom]; rw [List.getElem?_eq_getElem hlt, e1]
        · dsimp only [enumFrom]; omega
        · dsimp only [enumFrom]; omega
        · unfold step Cur.abs; rw [h2]; dsimp only [enumFrom]
          rw [← take_succ_drop hm h2, List.drop_eq_getElem_cons hlt, e1, e2]

/-- `inc(exception=UnexpectedEofError)` -/
theorem incE_abs {text : Str} {s : Cur} (h : s.Ok text) (a : List Key) (l : List Loss) :
    (∃ s', S.incE text s = .ok true s' ∧ s'.Ok text ∧ stepE (s.abs text a l) = .ok () (s'.abs text a l)) ∨
    ∃ e s', S.incE text s = .err e s' ∧ s'.Ok text ∧ stepE (s.abs text a l) = .err e (s'.abs text a l) := by
  obtain ⟨s', h1, h2, _, h3⟩ := inc_abs h a l
  have hs : s.next text = s' := by unfold S.inc at h1; injection h1
  unfold S.incE
  rcases h.rest with ⟨k1, k2, k3, k4⟩ | ⟨c, r, k1, k2, k3, k4⟩
  · refine .inr ⟨.parse .unexpectedEof 0, s', by rw [k4, hs], h2, ?_⟩
    have hr : (s.abs text a l).rest = [] := k2
    unfold step at h3; unfold stepE
    rw [hr] at h3 ⊢
    dsimp only at h3 ⊢
    injection h3 with _ h3; rw [h3]
  · have hr : (s.abs text a l).rest = c :: r := k2
    unfold step at h3; unfold stepE
    rw [hr] at h3 ⊢
    dsimp only at h3
    injection h3 with _ h3
    rw [k3]
    rcases r with _ | ⟨d, r⟩
    · exact .inr ⟨.parse .unexpectedEof 0, s', by simp only [enumFrom, hs], h2, by dsimp only; rw [← h3]⟩
    · exact .inl ⟨s', by simp only [enumFrom, hs], h2, by dsimp only; rw [← h3]⟩

theorem mark_abs {text : Str} {s : Cur} (h : s.Ok text) (a : List Key) (l : List Loss) :
    ∃ s', S.mark text s = .ok () s' ∧ s'.Ok text ∧ s'.idx = s.idx ∧ mark (s.abs text a l) = .ok () (s'.abs text a l) := by
  refine ⟨_, rfl, ⟨h.chars, h.current, h.idx, Nat.le_refl _⟩, rfl, ?_⟩
  unfold mark Cur.abs
  have : (text.take s.idx).drop s.idx = [] := List.drop_of_length_le (by simp; omega)
  simp only [this]

theorem extract_abs {text : Str} (s : Cur) (a : List Key) (l : List Loss) :
    ∃ t, S.extract text s = .ok t s ∧ extract (s.abs text a l) = .ok t (s.abs text a l) := ⟨_, rfl, rfl⟩

/-- `raise self.parse_error(...)` is at the same place -/
theorem fail_abs {text : Str} (s : Cur) (a : List Key) (l : List Loss) (k : PKind) :
    ∃ e, (S.fail k : S Unit) text s = .err e s ∧ (fail k : P Unit) (s.abs text a l) = .err e (s.abs text a l) := by
  refine ⟨_, rfl, ?_⟩
  unfold fail Cur.abs; simp

/-- the loop of `consume` without a bound -/
theorem consumeLoop_abs {text : Str} {p : Chr → Bool} (h0 : p 0 = false) (a : List Key) (l : List Loss) : ∀ (n : Nat) (s : Cur) (mn mx : Int),
    s.Ok text → s.chars.length < n → mx < 0 →
    ∃ r s', S.consumeLoop p n mn mx text s = .ok r s' ∧ s'.Ok text ∧ r.1 ≤ mn ∧ skip p (s.abs text a l) = .ok () (s'.abs text a l)
  | 0, s, mn, mx, h, hn, hm => absurd hn (Nat.not_lt_zero _)
  | n + 1, s, mn, mx, h, hn, hm => by
    rw [S.consumeLoop, S.get_bind]
    have hc := (cur_abs h a l).1
    by_cases hp : p s.char = true
    · have : (p s.char && mx != 0) = true := by simp [hp]; omega
      rw [if_pos this]
      obtain ⟨s', h1, h2, h2m, h3⟩ := inc_abs h a l
      rw [S.bind_ok h1]
      have hrest : ∃ r, (s.abs text a l).rest = s.char :: r := by
        rcases h.rest with ⟨k1, k2, _⟩ | ⟨c, r, k1, k2, _⟩
        · unfold Cur.char at hp; rw [k1] at hp; simp [h0] at hp
        · refine ⟨r, ?_⟩
          unfold Cur.char; rw [k1]; exact k2
      obtain ⟨r, hr⟩ := hrest
      have hskip : skip p (s.abs text a l) = skip p (s'.abs text a l) := by
        unfold step at h3
        rw [hr] at h3
        injection h3 with _ h3
        rw [← h3]
        unfold skip
        rw [hr]; simp [hp]
      rw [hskip]
      by_cases he : s'.atEnd = true
      · have hr' : (s'.abs text a l).rest = [] := by
          have := (cur_abs h2 a l).2
          rw [he] at this; unfold St.atEnd at this
          exact List.isEmpty_iff.mp this.symm
        refine ⟨(mn - 1, mx - 1), s', by simp [he, S.pure_def], h2, by dsimp only; omega, ?_⟩
        unfold skip; rw [hr']; simp
        cases hx : s'.abs text a l; rw [hx] at hr'; cases hr'; rfl
      · have hl : s'.chars.length < n := by
          have hs : s.next text = s' := by unfold S.inc at h1; injection h1
          rw [← hs]
          unfold Cur.next
          cases hcs : s.chars with
          | nil =>
            exfalso
            apply he
            rw [← hs]; unfold Cur.next Cur.atEnd; rw [hcs]; rfl
          | cons x y => rw [hcs] at hn; simp at hn ⊢; omega
        obtain ⟨r', s'', g1, g2, g3, g4⟩ := consumeLoop_abs h0 a l n s' (mn - 1) (mx - 1) h2 hl (by omega)
        refine ⟨r', s'', ?_, g2, by omega, g4⟩
        simp only [he, Bool.not_false, if_true]
        simpa using g1
    · have : ¬ ((p s.char && mx != 0) = true) := by simp [hp]
      rw [if_neg this]
      refine ⟨(mn, mx), s, rfl, h, Int.le_refl _, ?_⟩
      unfold skip
      have hst : ∀ c r, (s.abs text a l).rest = c :: r → p c = false := by
        intro c r hr
        rw [hc] at hp
        unfold St.cur at hp; rw [hr] at hp
        simpa using hp
      cases hr : (s.abs text a l).rest with
      | nil => cases hx : s.abs text a l; rw [hx] at hr; cases hr; simp
      | cons c r =>
        have := hst c r hr
        cases hx : s.abs text a l; rw [hx] at hr; cases hr; simp [this]

/-- `consume(chars)` without bounds -/
theorem consume_abs {text : Str} {s : Cur} {p : Chr → Bool} (h : s.Ok text) (h0 : p 0 = false) (a : List Key) (l : List Loss) :
    ∃ s', S.consume p 0 (-1) text s = .ok () s' ∧ s'.Ok text ∧ skip p (s.abs text a l) = .ok () (s'.abs text a l) := by
  obtain ⟨r, s', h1, h2, h3, h4⟩ := consumeLoop_abs h0 a l (s.chars.length + 1) s 0 (-1) h (by omega) (by omega)
  refine ⟨s', ?_, h2, h4⟩
  unfold S.consume
  rw [S.get_bind, S.bind_ok h1]
  simp only [show ¬ (r.1 > 0) by omega, if_false]
  rfl

/-! ## C35 -/

/-- **C35, the context manager.** Whatever the code inside `with self._state(restore=True)` does — also when it raises —
the iterator, the index and the current character are afterwards what they were before; with `save_marker=True` the whole
state is. -/
theorem C35_restore {α : Type} (sm : Bool) (body : S α) (text : Str) (s : Cur) :
    ((S.withState sm true body text s).state.chars = s.chars ∧ (S.withState sm true body text s).state.idx = s.idx ∧
      (S.withState sm true body text s).state.current = s.current) ∧
    (S.withState true true body text s).state = s := by
  constructor
  · unfold S.withState
    cases body text s <;> exact ⟨rfl, rfl, rfl⟩
  · unfold S.withState
    cases body text s <;> rfl

/-- **C35, exceptions.** After an exception inside `with self._state` (also without `restore`) the position is the one
before; without an exception and without `restore` nothing is put back. -/
theorem C35_exception {α : Type} (sm : Bool) (body : S α) (text : Str) (s : Cur) :
    (∀ e s', S.withState sm false body text s = .err e s' → s'.chars = s.chars ∧ s'.idx = s.idx ∧ s'.current = s.current) ∧
    ∀ v s', body text s = .ok v s' → S.withState sm false body text s = .ok v s' := by
  constructor
  · intro e s' h
    unfold S.withState at h
    cases hb : body text s <;> rw [hb] at h <;> cases h
    exact ⟨rfl, rfl, rfl⟩
  · intro v s' h
    unfold S.withState; rw [h]; rfl

theorem back_eq {s s' : Cur} (h : s'.marker = s.marker) (sm : Bool) : Cur.back sm s s' = s := by
  unfold Cur.back
  rw [h]
  cases sm <;> rfl

theorem peekLoop_spec {text : Str} : ∀ (n : Nat) (s : Cur) (buf : Str), s.Ok text →
    ∃ s', S.peekLoop n buf text s = .ok (buf ++ ((text.drop s.idx).take n).takeWhile fun c => !isValueEnd c && c != 0) s' ∧
      s'.marker = s.marker
  | 0, s, buf, _ => ⟨s, by simp [S.peekLoop, S.pure_def], rfl⟩
  | n + 1, s, buf, h => by
    rw [S.peekLoop, S.get_bind]
    obtain ⟨s', h1, h2, hm, h3⟩ := inc_abs h [] []
    rcases h.rest with ⟨k1, k2, _⟩ | ⟨c, r, k1, k2, _⟩
    · refine ⟨s, ?_, rfl⟩
      have : s.char = 0 := by unfold Cur.char; rw [k1]; rfl
      simp [this, k2, S.pure_def]
    · have hc : s.char = c := by unfold Cur.char; rw [k1]; rfl
      rw [hc, k2]
      by_cases hv : (isValueEnd c || c == 0) = true
      · refine ⟨s, ?_, rfl⟩
        have : (!isValueEnd c && c != 0) = false := by
          rcases Bool.or_eq_true _ _ ▸ hv with h | h <;> simp_all
        simp [hv, this, S.pure_def]
      · have hv' : (isValueEnd c || c == 0) = false := by simpa using hv
        have : (!isValueEnd c && c != 0) = true := by
          rw [Bool.or_eq_false_iff] at hv'
          simp [hv'.1]; simpa using hv'.2
        simp only [hv', Bool.not_false, if_true]
        rw [S.bind_ok h1]
        obtain ⟨s'', g1, g2⟩ := peekLoop_spec n s' (buf ++ [c]) h2
        have hr : text.drop s'.idx = r := by
          unfold step at h3
          have : (s.abs text [] []).rest = c :: r := k2
          rw [this] at h3
          injection h3 with _ h3
          have := congrArg St.rest h3
          exact this.symm
        refine ⟨s'', ?_, by rw [g2, hm]⟩
        rw [g1, hr]
        simp [this]

/-- **C35, `_peek(n)`** returns the next characters up to the end of a value, at most `n`, and changes nothing. -/
theorem C35_peek {text : Str} {s : Cur} (h : s.Ok text) (n : Nat) :
    S.peek n text s = .ok (((text.drop s.idx).take n).takeWhile fun c => !isValueEnd c && c != 0) s := by
  obtain ⟨s', h1, h2⟩ := peekLoop_spec n s [] h
  unfold S.peek S.withState
  rw [h1]
  simp [back_eq h2]

theorem incN_abs {text : Str} : ∀ (n : Nat) (s : Cur), s.Ok text → ∃ s', S.incN n text s = .ok (decide (n ≤ s.chars.length)) s' ∧
    s'.Ok text ∧ s'.marker = s.marker ∧ (n ≤ s.chars.length → s'.idx = s.idx + n)
  | 0, s, h => ⟨s, by simp [S.incN, S.pure_def], h, rfl, fun _ => rfl⟩
  | n + 1, s, h => by
    obtain ⟨s', h1, h2, hm, _⟩ := inc_abs h [] []
    have hs : s.next text = s' := by unfold S.inc at h1; injection h1
    rw [S.incN, S.bind_ok h1]
    cases hcs : s.chars with
    | nil =>
      have he : s'.atEnd = true := by rw [← hs]; unfold Cur.next Cur.atEnd; rw [hcs]; rfl
      exact ⟨s', by simp [he, S.pure_def], h2, hm, by simp⟩
    | cons x y =>
      obtain ⟨i, c⟩ := x
      have he : s'.atEnd = false := by rw [← hs]; unfold Cur.next Cur.atEnd; rw [hcs]; rfl
      have hch : s'.chars = y := by rw [← hs]; unfold Cur.next; rw [hcs]
      have hid : s'.idx = s.idx + 1 := by
        have h5 := h.chars
        rw [hcs] at h5
        cases hd : text.drop (s.idx + 1) with
        | nil => rw [hd] at h5; cases h5
        | cons d r =>
          rw [hd] at h5
          injection h5 with h5 _
          injection h5 with h5 _
          rw [← hs]; unfold Cur.next; rw [hcs]; exact h5
      obtain ⟨s'', g1, g2, g3, g4⟩ := incN_abs n s' h2
      refine ⟨s'', ?_, g2, by rw [g3, hm], ?_⟩
      · simp only [he, Bool.not_false, if_true]
        rw [g1, hch]; simp
      · intro hl
        rw [hch] at g4
        rw [g4 (by simpa using hl), hid]; omega

theorem peekUnicode_def (n : Nat) (s : Str) : peekUnicode n s = if s.length ≤ n then none else unicodeOf (s.take n) := rfl

/-- **C35, `_peek_unicode`**, on a `u` or `U`: the code point of the digits that follow — the function of the text used by
the parser model — and nothing changes. -/
theorem C35_peek_unicode {text : Str} {s : Cur} (h : s.Ok text) (isLong : Bool) (hu : s.char = 117 ∨ s.char = 85) :
    S.peekUnicode isLong text s = .ok (peekUnicode (if isLong then 8 else 4) ((text.drop s.idx).drop 1)) s := by
  have key : ∀ n, n > 0 → n = (if isLong then 8 else 4) →
      S.peekUnicode isLong text s = .ok (peekUnicode n ((text.drop s.idx).drop 1)) s := by
    intro n hpos hn
    obtain ⟨s1, h1, h2, hm, h3⟩ := inc_abs h [] []
    obtain ⟨s2, m1, m2, m3, m4⟩ := mark_abs h2 [] []
    obtain ⟨s3, i1, i2, i3, i4⟩ := incN_abs n s2 m2
    have hrest : (text.drop s.idx).drop 1 = text.drop s2.idx := by
      rw [m3]
      unfold step at h3
      rcases h.rest with ⟨k1, k2, _⟩ | ⟨c, r, k1, k2, _⟩
      · have : s.char = 0 := by unfold Cur.char; rw [k1]; rfl
        rw [this] at hu; simp at hu
      · have : (s.abs text [] []).rest = c :: r := k2
        rw [this] at h3
        injection h3 with _ h3
        rw [k2]; exact congrArg St.rest h3
    have hlen : s2.chars.length = (text.drop s2.idx).length - 1 := by
      rw [m2.chars, enumFrom_length]; simp; omega
    have hne : ¬ (s.char ≠ 117 && s.char ≠ 85) = true := by rcases hu with h | h <;> simp [h]
    have hbody : ∃ s4, (do
        let s ← S.get
        if s.char ≠ 117 && s.char ≠ 85 then S.fail .internal
        else
          let _ ← S.inc
          S.mark
          if ← S.incN (if isLong then 8 else 4) then do
            let ex ← S.extract
            return unicodeOf ex
          else return none : S (Option Chr)) text s = .ok (peekUnicode n (text.drop s2.idx)) s4 := by
      refine ⟨s3, ?_⟩
      rw [S.get_bind, if_neg hne, S.bind_ok h1, S.bind_ok m1, ← hn, S.bind_ok i1, peekUnicode_def, hlen]
      by_cases hl : (text.drop s2.idx).length ≤ n
      · have : ¬ n ≤ (text.drop s2.idx).length - 1 := by omega
        simp only [this, hl, decide_false, if_true]
        rfl
      · have h' : n ≤ (text.drop s2.idx).length - 1 := by omega
        simp only [h', hl, decide_true, if_true, if_false]
        have hx : (text.take s3.idx).drop s3.marker = (text.drop s2.idx).take n := by
          have : s2.marker = s2.idx := by
            have : S.mark text s1 = .ok () { s1 with marker := s1.idx } := rfl
            rw [this] at m1; injection m1 with _ m1; rw [← m1]
          rw [i4 (by rw [hlen]; exact h'), i3, this, List.drop_take]
          congr 1; omega
        show S.bind _ _ _ _ = _
        unfold S.bind S.extract
        simp only [hx]
        rfl
    obtain ⟨s4, hb⟩ := hbody
    unfold S.peekUnicode S.withState
    rw [hb, hrest]
    rfl
  cases isLong
  · exact key 4 (by omega) rfl
  · exact key 8 (by omega) rfl

/-- **C35, the look-ahead for CR LF** behind an opening `"""` -/
theorem C35_peek_crlf {text : Str} {s : Cur} (h : s.Ok text) :
    S.peekCrLf text s = .ok (decide (s.char = 13 ∧ ((text.drop s.idx).drop 1).head? = some 10)) s := by
  obtain ⟨s1, h1, h2, hm, h3⟩ := inc_abs h [] []
  unfold S.peekCrLf
  rw [S.get_bind]
  have hcur := cur_abs h2 [] []
  have hrest : (text.drop s.idx).drop 1 = text.drop s1.idx := by
    unfold step at h3
    rcases h.rest with ⟨k1, k2, _⟩ | ⟨c, r, k1, k2, _⟩
    · have : (s.abs text [] []).rest = [] := k2
      rw [this] at h3
      injection h3 with _ h3
      have h4 : text.drop s.idx = text.drop s1.idx := congrArg St.rest h3
      rw [k2] at h4 ⊢
      exact h4
    · have : (s.abs text [] []).rest = c :: r := k2
      rw [this] at h3
      injection h3 with _ h3
      rw [k2]; exact congrArg St.rest h3
  rw [hrest]
  have hw : S.withState false true (do
      if ← S.inc then
        let s' ← S.get
        return [s.char, s'.char]
      else return [s.char] : S Str) text s = .ok (if s1.atEnd then [s.char] else [s.char, s1.char]) s := by
    unfold S.withState
    rw [S.bind_ok h1]
    cases he : s1.atEnd
    · show SRes.ok _ _ = _
      simp [back_eq hm, S.pure_def]
    · show SRes.ok _ _ = _
      simp [back_eq hm, S.pure_def]
  rw [S.bind_ok hw]
  show SRes.ok _ _ = _
  congr 1
  rcases h2.rest with ⟨k1, k2, _⟩ | ⟨c, r, k1, k2, _⟩
  · have : s1.atEnd = true := by unfold Cur.atEnd; rw [k1]; rfl
    simp [this, k2]
  · have e1 : s1.atEnd = false := by unfold Cur.atEnd; rw [k1]; rfl
    have e2 : s1.char = c := by unfold Cur.char; rw [k1]; rfl
    rw [Bool.eq_iff_iff]
    simp [e1, e2, k2]

/-- **C35, `_peek_table`.** Looking ahead for the next header leaves the parser where it was, with and without success;
and the header that is parsed next has the kind and the key that the look-ahead saw (the separator of the key aside). -/
theorem C35_peek_table (st : St) :
    (∀ r, peekTable st = r → (∃ p, r = .ok p st) ∨ ∃ e, r = .err e st) ∧
    ∀ h s, parseHeader st = .ok h s → ∃ k, peekTable st = .ok (h.isAot, k) st ∧ h.key = k.setSep [] := by
  constructor
  · rintro r rfl
    unfold peekTable peeking
    split
    · exact .inl ⟨_, rfl⟩
    · exact .inr ⟨_, rfl⟩
  · intro h s hh
    have := parseHeader_does st
    unfold Does P.wp at this
    rw [hh] at this
    exact this.2.2.2.2

/-- **C35, where it is used**: in a document the next header is looked at twice, by `_peek_table` and by `_parse_table`. -/
example : (peekTable ⟨t!"[[ a . \"b c\" ]] # x\n", [], [], []⟩ matches .ok (true, _) _) = true := by decide +kernel

/-! ## `_parse_bool` -/

theorem consume_one {text : Str} {s : Cur} (h : s.Ok text) {c : Chr} (hc0 : c ≠ 0) :
    (∃ r s', text.drop s.idx = c :: r ∧ S.consume (· == c) 1 1 text s = .ok () s' ∧ s'.Ok text ∧ s'.marker = s.marker ∧
      s'.idx = s.idx + 1) ∨
    ((∀ r, text.drop s.idx ≠ c :: r) ∧ S.consume (· == c) 1 1 text s = .err (.parse .unexpectedChar (text.length - s.idx)) s) := by
  unfold S.consume
  rw [S.get_bind]
  obtain ⟨s', h1, h2, hm, h3⟩ := inc_abs h [] []
  rcases h.rest with ⟨k1, k2, _⟩ | ⟨d, r, k1, k2, k3, k4⟩
  · right
    refine ⟨(fun r hr => by rw [k2] at hr; cases hr), ?_⟩
    have : s.char = 0 := by unfold Cur.char; rw [k1]; rfl
    have hl : S.consumeLoop (· == c) (s.chars.length + 1) 1 1 text s = .ok (1, 1) s := by
      rw [S.consumeLoop, S.get_bind, if_neg (by simp [this]; exact fun h => absurd h.symm hc0)]
      rfl
    rw [S.bind_ok hl]; rfl
  · have hd : s.char = d := by unfold Cur.char; rw [k1]; rfl
    by_cases hcd : d = c
    · subst hcd
      left
      have hl : ∃ mx, S.consumeLoop (· == d) (s.chars.length + 1) 1 1 text s = .ok (0, mx) s' := by
        rw [S.consumeLoop, S.get_bind, if_pos (by simp [hd]), S.bind_ok h1]
        cases he : s'.atEnd
        · have hne : s.chars.length ≠ 0 := by
            intro h0
            have hcs : s.chars = [] := List.eq_nil_of_length_eq_zero h0
            have hs : s.next text = s' := by unfold S.inc at h1; injection h1
            rw [← hs] at he; unfold Cur.next Cur.atEnd at he; rw [hcs] at he; cases he
          obtain ⟨m, hm⟩ := Nat.exists_eq_succ_of_ne_zero hne
          simp only [Bool.not_false, if_true]
          rw [hm, S.consumeLoop, S.get_bind, if_neg (by simp)]
          exact ⟨_, rfl⟩
        · exact ⟨_, rfl⟩
      obtain ⟨mx, hl⟩ := hl
      refine ⟨r, s', k2, by rw [S.bind_ok hl]; rfl, h2, hm, ?_⟩
      have hs : s.next text = s' := by unfold S.inc at h1; injection h1
      rw [← hs]; unfold Cur.next; rw [k3]
      cases r with
      | nil =>
        have := congrArg List.length k2
        simp at this
        simp only [enumFrom]; omega
      | cons => rfl
    · right
      refine ⟨(fun r hr => by rw [k2] at hr; injection hr with hr _; exact hcd hr), ?_⟩
      have hl : S.consumeLoop (· == c) (s.chars.length + 1) 1 1 text s = .ok (1, 1) s := by
        rw [S.consumeLoop, S.get_bind, if_neg (by simp [hd, hcd])]
        rfl
      rw [S.bind_ok hl]; rfl

/-- characters in common at the start -/
def common (w t : Str) : Nat := ((w.zip t).takeWhile fun p => p.1 == p.2).length

theorem boolLoop_spec {text : Str} : ∀ (word : Str) (s : Cur), s.Ok text → (∀ c ∈ word, c ≠ 0) →
    ∃ s', s'.marker = s.marker ∧ ((word.isPrefixOf (text.drop s.idx) = true ∧ S.boolLoop word text s = .ok () s' ∧ s'.Ok text ∧
        s'.idx = s.idx + word.length) ∨
      (word.isPrefixOf (text.drop s.idx) = false ∧
        S.boolLoop word text s = .err (.parse .unexpectedChar ((text.drop s.idx).length - common word (text.drop s.idx))) s'))
  | [], s, h, _ => ⟨s, rfl, .inl ⟨by simp, rfl, h, rfl⟩⟩
  | c :: w, s, h, hw => by
    rw [S.boolLoop]
    rcases consume_one h (hw c (by simp)) with ⟨r, s1, k1, k2, k3, k4, k5⟩ | ⟨k1, k2⟩
    · obtain ⟨s', g1, g2⟩ := boolLoop_spec w s1 k3 fun c hc => hw c (by simp [hc])
      have hr : text.drop s1.idx = r := by
        rw [k5, ← List.drop_drop, k1]; rfl
      rw [hr] at g2
      refine ⟨s', by rw [g1, k4], ?_⟩
      rw [S.bind_ok k2, k1]
      rcases g2 with ⟨q1, q2, q3, q4⟩ | ⟨q1, q2⟩
      · exact .inl ⟨by simpa using q1, q2, q3, by rw [q4, k5]; simp; omega⟩
      · refine .inr ⟨by simpa using q1, ?_⟩
        rw [q2]
        congr 1
        have : common (c :: w) (c :: r) = common w r + 1 := by simp [common]
        rw [this]; simp
    · refine ⟨s, rfl, .inr ⟨?_, ?_⟩⟩
      · cases ht : text.drop s.idx with
        | nil => rfl
        | cons d r =>
          have : c ≠ d := by rintro rfl; exact k1 r ht
          simp [List.isPrefixOf, this]
      · rw [S.bind_err k2]
        congr 1
        have : common (c :: w) (text.drop s.idx) = 0 := by
          cases ht : text.drop s.idx with
          | nil => rfl
          | cons d r =>
            have : ¬ c = d := by rintro rfl; exact k1 r ht
            simp [common, this]
        rw [this]; simp

/-- `_parse_bool` on the object does what the parser model says: it reads the word or puts everything back. -/
theorem parseBool_abs {text : Str} {s : Cur} (h : s.Ok text) (word : Str) (hw : ∀ c ∈ word, c ≠ 0) (v : Bool) (a : List Key) (l : List Loss) :
    (∃ s', S.parseBool word v text s = .ok (.bool v {}) s' ∧ s'.Ok text ∧ parseBool word v (s.abs text a l) = .ok (.bool v {}) (s'.abs text a l)) ∨
    ∃ e, S.parseBool word v text s = .err e s ∧ parseBool word v (s.abs text a l) = .err e (s.abs text a l) := by
  obtain ⟨s', g1, g2⟩ := boolLoop_spec word s h hw
  unfold S.parseBool S.withState parseBool
  have hr : (s.abs text a l).rest = text.drop s.idx := rfl
  rw [hr]
  rcases g2 with ⟨q1, q2, q3, q4⟩ | ⟨q1, q2⟩
  · left
    refine ⟨s', by rw [S.bind_ok q2]; rfl, q3, ?_⟩
    rw [if_pos q1]
    unfold Cur.abs
    rw [g1, q4]
    have hp := List.isPrefixOf_iff_prefix.mp q1
    obtain ⟨t, ht⟩ := hp
    have ht' : text.take (s.idx + word.length) = text.take s.idx ++ word := by
      rw [List.take_add, ← ht]; simp
    have hl : (text.take s.idx).length = s.idx := by have := h.idx; simp; omega
    rw [ht', List.drop_append_of_le_length (by have := h.marker; omega)]
    simp
  · right
    rw [S.bind_err q2, if_neg (by simp [q1])]
    refine ⟨_, ?_, rfl⟩
    show SRes.err _ (Cur.back false s s') = _
    rw [back_eq g1]; rfl

/-- the object in the middle of a text: behind `x`, at a `u` of an escape -/
example : S.peekUnicode false (t!"xu00e9 ") ((Cur.init (t!"xu00e9 ")).next (t!"xu00e9 ")) matches .ok (some 233) _ := by
  rfl

end Tomlkit
