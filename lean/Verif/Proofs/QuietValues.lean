import Verif.Proofs.Quiet
/-!
# Values of ordinary texts write nothing to the log
-/
namespace Tomlkit

/-- a failure of another kind than the one `_parse_array` catches -/
def Other {α : Type} (m : P α) : Prop := ∀ st, m.wp (fun _ _ => True) (fun e _ => e.isUnexpectedChar = false) st

section
variable {α β : Type}
theorem Other.bind {m : P β} {f : β → P α} (h : Other m) (hf : ∀ b, Other (f b)) : Other (m >>= f) := by
  intro st
  exact wp_bind (wp_mono (h st) (fun b s _ => hf b s) fun _ _ h => h)
theorem other_pure (a : α) : Other (pure a : P α) := fun _ => trivial
theorem other_getSt : Other getSt := fun _ => trivial
theorem other_mark : Other mark := fun _ => trivial
theorem other_extract : Other extract := fun _ => trivial
theorem other_skip (p : Chr → Bool) : Other (skip p) := fun _ => trivial
theorem other_raise {e : Err} (h : e.isUnexpectedChar = false) : Other (raise e : P α) := fun _ => h
theorem other_fail {k : PKind} (h : k ≠ .unexpectedChar) : Other (fail k : P α) := by
  intro st
  show (Err.parse k st.rest.length).isUnexpectedChar = false
  cases k <;> first | rfl | exact absurd rfl h
theorem other_dateErr {k : PKind} (h : k ≠ .unexpectedChar) (e : PyErr) : Other (dateErr k e : P α) := by
  cases e
  · exact other_fail h
  · exact other_raise rfl
theorem Other.ite {c : Prop} [Decidable c] {m m' : P α} (h : Other m) (h' : Other m') : Other (if c then m else m') := by
  split
  · exact h
  · exact h'
end

/-- unfolds binds and conditionals -/
macro "other" : tactic => `(tactic| repeat' with_reducible first
  | exact other_pure _ | exact other_getSt | exact other_mark | exact other_extract | exact other_skip _
  | exact other_raise rfl | exact other_fail (by decide) | exact other_dateErr (by decide) _
  | refine Other.bind ?_ fun _ => ?_ | refine Other.ite ?_ ?_ | assumption | split | (dsimp only; split))

theorem other_parseDigits : Other parseDigits := by
  unfold parseDigits
  other

/-- white space after a date -/
def Padded (T : Str) (ws rest : Str) : Prop := ws ≠ [] → ∃ d, PadDate T d ws rest

theorem padded_nil (T rest : Str) : Padded T [] rest := fun h => absurd rfl h

theorem dropWhile_head {p : Chr → Bool} {l : Str} {c : Chr} {q : Str} (h : l.dropWhile p = c :: q) : p c = false := by
  induction l with
  | nil => cases h
  | cons a l ih =>
    rw [List.dropWhile_cons] at h
    split at h
    · exact ih h
    · rename_i hp
      cases h
      simpa using hp

theorem rstrip_split (s : Str) : rstrip s ++ s.drop (rstrip s).length = s := by
  obtain ⟨w, hw⟩ := rstrip_prefix s
  have : ∀ a : Str, a ++ w = s → a ++ s.drop a.length = s := by
    intro a ha; rw [← ha]; simp
  exact this _ hw

/-- what `parseDigits` returns: white space follows a date only -/
theorem parseDigits_pad {T : Str} (st : St) (hT : st.rest <:+ T) (hext : st.ext = []) :
    parseDigits.wp (fun v s => Padded T v.trivia.commentWs s.rest) (fun _ _ => True) st := by
  unfold parseDigits
  refine wp_bind (wp_skip (wp_bind (wp_extract ?_)))
  generalize hs : ({ st with rest := st.rest.dropWhile fun c => !isValueEnd c, ext := st.ext ++ st.rest.takeWhile fun c => !isValueEnd c } : St) = s
  have hsr : st.rest = s.ext ++ s.rest := by
    rw [← hs]
    show st.rest = st.ext ++ _ ++ _
    rw [hext, List.nil_append, List.takeWhile_append_dropWhile]
  have hnum : (match parseNumber s.ext {} with
    | some i => (pure i : P Item)
    | none => fail .invalidNumber).wp (fun v s => Padded T v.trivia.commentWs s.rest) (fun _ _ => True) s := by
    rcases hp : parseNumber s.ext {} with _ | i
    · exact trivial
    · obtain ⟨h1, h2, h3, h4⟩ := parseNumber_text hp
      show Padded T i.trivia.commentWs _
      rw [h2]; exact padded_nil _ _
  show P.wp (match matchLoose s.ext with | _ => _) _ _ s
  rcases hm : matchLoose s.ext with _ | ⟨_ | _, _ | _⟩
  · exact hnum
  · exact hnum
  · dsimp only
    rcases hp : parseRfc3339 s.ext with e | v
    · cases e <;> exact trivial
    · cases v with
      | time d => exact padded_nil _ _
      | _ => exact trivial
  · dsimp only
    rcases hp : parseRfc3339 s.ext with e | v
    · cases e <;> exact trivial
    · have hgo : (do
          mark
          skip fun c => !isDateEnd c
          let timeRaw ← extract
          let timePart := rstrip timeRaw
          let cws := timeRaw.drop timePart.length
          if timePart.isEmpty then
            match v with
            | .date d => return .date d { commentWs := cws } s.ext
            | .datetime d => return .date d.date { commentWs := cws } s.ext
            | .time _ => raise .assertion
          else
            match parseRfc3339 (s.ext ++ timePart) with
            | .ok (.datetime d) => return .datetime d { commentWs := cws } (s.ext ++ timePart)
            | .ok _ => raise .assertion
            | .error e => Tomlkit.dateErr .invalidDate e : P Item).wp
              (fun v s => Padded T v.trivia.commentWs s.rest) (fun _ _ => True) s := by
        refine wp_bind (wp_mark (wp_bind (wp_skip (wp_bind (wp_extract ?_)))))
        dsimp only
        rw [List.nil_append]
        have hdw : (s.rest.dropWhile fun c => !isDateEnd c) = (s.rest.dropWhile fun c => !isDateEnd c) := rfl
        revert hdw
        generalize hr : (s.rest.dropWhile fun c => !isDateEnd c) = r
        intro _
        have hsplit : s.rest = (s.rest.takeWhile fun c => !isDateEnd c) ++ r := by
          rw [← hr, List.takeWhile_append_dropWhile]
        have hnd : ∀ c ∈ s.rest.takeWhile fun c => !isDateEnd c, isDateEnd c = false := by
          have := List.all_takeWhile (l := s.rest) (p := fun c => !isDateEnd c)
          rw [List.all_eq_true] at this
          intro c hc
          simpa using this c hc
        revert hsplit hnd
        generalize (s.rest.takeWhile fun c => !isDateEnd c) = tr
        intro hsplit hnd
        have hstop : ∀ c q, r = c :: q → isDateEnd c = true := by
          intro c q hq
          rw [hq] at hr
          simpa using dropWhile_head hr
        have hws : ∀ c ∈ tr.drop (rstrip tr).length, isUniSpace c = true ∧ isDateEnd c = false :=
          fun c hc => ⟨rstrip_drop c hc, hnd c (List.mem_of_mem_drop hc)⟩
        have hsub : s.ext ++ (rstrip tr ++ (tr.drop (rstrip tr).length ++ r)) <:+ T := by
          rw [← List.append_assoc (rstrip tr), rstrip_split, ← hsplit, ← hsr]; exact hT
        refine wp_ite (fun hemp => ?_) fun hemp => ?_
        · have hemp : rstrip tr = [] := by simpa using hemp
          have hpad : Padded T (tr.drop (rstrip tr).length) r := by
            intro hne
            exact ⟨s.ext, ⟨_, hp⟩, hne, hws, by rw [hemp] at hsub ⊢; exact hsub, hstop⟩
          cases v with
          | time d => exact trivial
          | date d => exact hpad
          | datetime d => exact hpad
        · rcases hp2 : parseRfc3339 (s.ext ++ rstrip tr) with e | v2
          · cases e <;> exact trivial
          · cases v2 with
            | datetime d =>
              intro hne
              exact ⟨s.ext ++ rstrip tr, ⟨_, hp2⟩, hne, hws, by rw [List.append_assoc]; exact hsub, hstop⟩
            | _ => exact trivial
      cases v with
      | time d => exact trivial
      | date d => exact hgo
      | datetime d => exact hgo
  · dsimp only
    rcases hp : parseRfc3339 s.ext with e | v
    · cases e <;> exact trivial
    · cases v with
      | datetime d => exact padded_nil _ _
      | _ => exact trivial

/-! ### the induction -/

/-- a position in the text, with nothing lost -/
structure Still (T : Str) (s : St) : Prop where
  suf : s.rest <:+ T
  loss : s.loss = []

theorem wp_both {α : Type} {m : P α} {Q Q' : α → St → Prop} {E E' : Err → St → Prop} {st : St} (h : m.wp Q E st)
    (h' : m.wp Q' E' st) : m.wp (fun a s => Q a s ∧ Q' a s) (fun e s => E e s ∧ E' e s) st := by
  unfold P.wp at *
  cases hm : m st <;> rw [hm] at h h'
  · exact ⟨h, h'⟩
  · exact ⟨h, h'⟩

section
variable {α : Type} {T : Str} {s : St} {R : α → St → Prop} {m : P α}

theorem Still.call (h : Still T s) (hm : Mute m) (hk : Keeps m R s) {Q : α → St → Prop} {E : Err → St → Prop}
    (hq : ∀ a s', Still T s' → R a s' → Q a s') (he : ∀ e s', Still T s' → E e s') : m.wp Q E s := by
  refine wp_mono (wp_both (hm s) hk) ?_ ?_
  · rintro a s' ⟨h1, h2⟩
    have h1 := h1.trans h.loss
    exact hq a s' ⟨h2.suf.trans h.suf, h1⟩ (h2.fact h1)
  · rintro e s' ⟨h1, h2⟩
    exact he e s' ⟨h2.2.trans h.suf, h1.trans h.loss⟩

/-- what is known when nothing is lost -/
theorem Still.add (h : Still T s) {Q : α → St → Prop} {E : Err → St → Prop} (hm : m.wp (fun a s => s.loss = [] ∧ Q a s) E s)
    (hk : Keeps m R s) : m.wp (fun a s => Still T s ∧ Q a s ∧ R a s) E s := by
  refine wp_mono (wp_both hm hk) ?_ fun _ _ h => h.1
  rintro a s' ⟨⟨h1, h2⟩, h3⟩
  exact ⟨⟨h3.suf.trans h.suf, h1⟩, h2, h3.fact h1⟩

theorem Still.skip (h : Still T s) {p : Chr → Bool} {Q : Unit → St → Prop} {E : Err → St → Prop}
    (hq : ∀ s', Still T s' → s'.rest = s.rest.dropWhile p → s'.ext = s.ext ++ s.rest.takeWhile p → Q () s') :
    (Tomlkit.skip p).wp Q E s := wp_skip (hq _ ⟨(List.dropWhile_suffix p).trans h.suf, h.loss⟩ rfl rfl)

theorem Still.mark (h : Still T s) {Q : Unit → St → Prop} {E : Err → St → Prop}
    (hq : ∀ s', Still T s' → s'.rest = s.rest → s'.ext = [] → Q () s') : Tomlkit.mark.wp Q E s :=
  wp_mark (hq _ ⟨h.suf, h.loss⟩ rfl rfl)

theorem Still.step (h : Still T s) {Q : Unit → St → Prop} {E : Err → St → Prop}
    (hq : ∀ s', Still T s' → s'.rest = s.rest.drop 1 → Q () s') : Tomlkit.step.wp Q E s :=
  wp_step (hq _ ⟨(List.drop_suffix 1 _).trans h.suf, h.loss⟩ rfl)

theorem Still.stepX (h : Still T s) {Q : Unit → St → Prop} {E : Err → St → Prop}
    (hq : ∀ s', Still T s' → s'.rest = s.rest.drop 1 → s'.ext = s.ext ++ s.rest.take 1 → Q () s') : Tomlkit.step.wp Q E s :=
  wp_step (hq _ ⟨(List.drop_suffix 1 _).trans h.suf, h.loss⟩ rfl rfl)

theorem Still.stepE (h : Still T s) {Q : Unit → St → Prop} {E : Err → St → Prop}
    (hq : ∀ s', Still T s' → s'.rest = s.rest.drop 1 → Q () s')
    (he : ∀ s', s'.loss = [] → E (.parse .unexpectedEof 0) s') : Tomlkit.stepE.wp Q E s := by
  unfold P.wp Tomlkit.stepE
  rcases hs : s.rest with _ | ⟨c, _ | ⟨d, r⟩⟩
  · exact he _ h.loss
  · exact he _ h.loss
  · refine hq _ ⟨?_, h.loss⟩ (by rw [hs]; rfl)
    refine List.IsSuffix.trans ?_ h.suf
    rw [hs]; exact List.suffix_cons _ _

theorem Still.note (h : Still T s) {b : Bool} {l : Loss} {Q : Unit → St → Prop} {E : Err → St → Prop} (hb : b = false)
    (hq : Q () s) : (Tomlkit.note b l).wp Q E s := by
  subst hb
  exact hq
end

/-- the failure of a value: the position is not moved, unless it is not at a closing bracket -/
def ErrV (T : Str) (st : St) (e : Err) (s : St) : Prop :=
  s.loss = [] ∧ (123 ∉ T → e.isUnexpectedChar = true → s.cur = 93 → s.rest.length = st.rest.length)

theorem mem_of_cur {T : Str} {s : St} (h : s.rest <:+ T) {c : Chr} (hc : s.cur = c) (h0 : c ≠ 0) : c ∈ T := by
  obtain ⟨r, hr⟩ := cur_cons hc h0
  exact h.subset (by rw [hr]; simp)

/-- the separator: an equals sign, then blanks -/
theorem parseSep_eq (st : St) : parseSep.wp (fun _ s => ∃ a ws, st.rest = a ++ (61 :: (ws ++ s.rest)) ∧
    ∀ c ∈ ws, isSpaces c = true) (fun _ _ => True) st := by
  unfold parseSep
  refine wp_bind (wp_mark (wp_bind (wp_getSt ?_)))
  dsimp only
  refine wp_ite (fun _ => trivial) fun h1 => wp_ite (fun _ => trivial) fun h2 => ?_
  refine wp_bind (wp_stepN (wp_extract ?_))
  dsimp only
  have hall : ∀ c ∈ st.rest.takeWhile isKvSep, isKvSep c = true := by
    have := List.all_takeWhile (l := st.rest) (p := isKvSep)
    rwa [List.all_eq_true] at this
  have hsp : st.rest = st.rest.takeWhile isKvSep ++ st.rest.dropWhile isKvSep := (List.takeWhile_append_dropWhile).symm
  have hdrop : st.rest.drop (st.rest.takeWhile isKvSep).length = st.rest.dropWhile isKvSep := by
    have : ∀ a b : Str, st.rest = a ++ b → st.rest.drop a.length = b := by
      intro a b hab; rw [hab]; simp
    exact this _ _ hsp
  rw [hdrop]
  revert h1 h2 hall hsp
  generalize st.rest.takeWhile isKvSep = seps
  generalize st.rest.dropWhile isKvSep = r
  intro h1 h2 hall hsp
  have h3 : 61 ∈ seps := by simpa using h1
  clear h1
  have hsplit : seps = seps.takeWhile (· != 61) ++ 61 :: seps.drop ((seps.takeWhile (· != 61)).length + 1) := by
    clear h2 hsp hall
    induction seps with
    | nil => cases h3
    | cons a l ih =>
      rw [List.takeWhile_cons]
      by_cases ha : a = 61
      · subst ha; simp
      · rw [if_pos (by simpa using ha)]
        rcases List.mem_cons.1 h3 with h | h
        · exact absurd h.symm ha
        · conv => lhs; rw [ih h]
          simp
  refine ⟨seps.takeWhile (· != 61), seps.drop ((seps.takeWhile (· != 61)).length + 1), ?_, ?_⟩
  · rw [hsp]
    conv => lhs; rw [hsplit]
    simp
  · intro c hc
    have hne : c ≠ 61 := by
      rintro rfl
      apply h2
      simpa using hc
    have := hall c (List.mem_of_mem_drop hc)
    unfold isKvSep at this
    unfold isSpaces
    simp only [Bool.or_eq_true, beq_iff_eq] at this ⊢
    omega

/-- the comment of an array -/
theorem commentTrail_other (st : St) (hc : st.cur = 35) :
    (parseCommentTrail false).wp (fun _ _ => True) (fun e _ => e.isUnexpectedChar = false) st := by
  obtain ⟨r, hr⟩ := cur_cons hc (by decide)
  unfold parseCommentTrail
  refine wp_bind (wp_getSt (wp_ite (fun _ => trivial) fun _ => ?_))
  refine wp_bind (wp_mark (wp_bind (wp_skip ?_)))
  dsimp only
  have hd : st.rest.dropWhile isSpTabCr = st.rest := by rw [hr]; rfl
  rw [hd]
  refine wp_bind (wp_getSt (wp_ite (fun _ => ?_) fun _ => wp_ite (fun _ => ?_) fun h => absurd ?_ h))
  · exact trivial
  · refine wp_bind (wp_extract (wp_bind (wp_mark (wp_bind (wp_step (wp_bind (wp_skip ?_)))))))
    refine wp_bind (wp_getSt (wp_ite (fun _ => rfl) fun _ => ?_))
    refine wp_bind (wp_extract (wp_bind (wp_mark ?_)))
    exact trivial
  · unfold St.cur at hc ⊢; exact hc

/-- a comment begins with `#` -/
theorem commentTrail_hash (b : Bool) (st : St) :
    (parseCommentTrail b).wp (fun a _ => a.2.1 = [] ∨ ∃ r, a.2.1 = 35 :: r) (fun _ _ => True) st := by
  have htr : ∀ (st : St) (x y : Str) (Q : Str × Str × Str → Prop), (∀ tr, Q (x, y, tr)) → P.wp (do
      let tr ← if b = true then parseTrail else pure []
      return (x, y, tr)) (fun a _ => Q a) (fun _ _ => True) st := by
    intro st x y Q hQ
    refine wp_ite (fun _ => wp_bind ?_) fun _ => wp_bind (hQ _)
    unfold P.wp
    rcases parseTrail st with ⟨a, s⟩ | ⟨e, s⟩
    · exact hQ a
    · exact trivial
  unfold parseCommentTrail
  refine wp_bind (wp_getSt (wp_ite (fun _ => Or.inl rfl) fun _ => ?_))
  refine wp_bind (wp_mark (wp_bind (wp_skip ?_)))
  refine wp_bind (wp_getSt (wp_ite (fun _ => ?_) fun _ => wp_ite (fun hc => ?_) fun h => trivial))
  · exact htr _ _ _ _ fun tr => Or.inl rfl
  · obtain ⟨r, hr⟩ := cur_cons hc (by decide)
    dsimp only at hr
    refine wp_bind (wp_extract (wp_bind (wp_mark (wp_bind (wp_step (wp_bind (wp_skip ?_)))))))
    refine wp_bind (wp_getSt (wp_ite (fun _ => trivial) fun _ => ?_))
    refine wp_bind (wp_extract (wp_bind (wp_mark ?_)))
    refine htr _ _ _ _ fun tr => Or.inr ?_
    dsimp only
    rw [hr]
    exact ⟨_, rfl⟩

/-- at the beginning of a line, or at the end -/
def AtLine (T : Str) (s : St) : Prop := s.rest = [] ∨ ∃ pre, T = pre ++ s.rest ∧ LineStart pre

/-- at a header, after its indentation, or at the end -/
def AtHead (T : Str) (s : St) : Prop :=
  s.rest = [] ∨ (s.cur = 91 ∧ (∀ c ∈ s.ext, isSpaces c = true) ∧ ∃ pre, T = pre ++ (s.ext ++ s.rest) ∧ LineStart pre)

theorem atLine_nl {T : Str} {st s : St} (h : st.rest <:+ T) (hc : st.cur = 10) (hr : s.rest = st.rest.drop 1) : AtLine T s := by
  obtain ⟨r, hr0⟩ := cur_cons hc (by decide)
  obtain ⟨p, hp⟩ := h
  refine Or.inr ⟨p ++ [10], ?_, Or.inr ⟨p, rfl⟩⟩
  rw [hr, hr0, ← hp, hr0]; simp

section
variable {T : Str} (hcr : ∀ p r, T = p ++ 13 :: r → ∃ q, r = 10 :: q)
include hcr

theorem parseTrail_line (st : St) (h : Still T st) (hs : st.rest = [] ∨ st.cur = 10 ∨ st.cur = 13) :
    parseTrail.wp (fun a s => AtLine T s ∧ (s.rest = [] ∨ hasNl a = true)) (fun _ _ => True) st := by
  unfold parseTrail
  refine wp_bind (h.skip fun s h hr _ => ?_)
  have hr : s.rest = st.rest := by
    rw [hr]
    rcases hs with h | h | h
    · rw [h]; rfl
    · obtain ⟨r, h⟩ := cur_cons h (by decide); rw [h]; rfl
    · obtain ⟨r, h⟩ := cur_cons h (by decide); rw [h]; rfl
  have hcur : s.cur = st.cur := by unfold St.cur; rw [hr]
  have h2 : ∀ s : St, Still T s → (s.rest = [] ∨ s.cur = 10) → P.wp (do
      let st ← getSt
      if st.cur = 10 then step
      extract) (fun a s => AtLine T s ∧ (s.rest = [] ∨ hasNl a = true)) (fun _ _ => True) s := by
    intro s h hs
    refine wp_bind (wp_getSt (wp_ite (fun hc => ?_) fun hc => ?_))
    · refine wp_bind (h.stepX fun s1 h1 hr1 he1 => wp_extract ⟨atLine_nl h.suf hc hr1, Or.inr ?_⟩)
      obtain ⟨r, hr0⟩ := cur_cons hc (by decide)
      rw [he1, hr0]
      unfold hasNl
      simp
    · exact wp_extract ⟨Or.inl (hs.resolve_right hc), Or.inl (hs.resolve_right hc)⟩
  refine wp_bind (wp_getSt (wp_ite (fun hc => ?_) fun hc => ?_))
  · refine wp_bind (h.step fun s1 h1 hr1 => h2 s1 h1 (Or.inr ?_))
    obtain ⟨r, hr0⟩ := cur_cons hc (by decide)
    obtain ⟨p, hp⟩ := h.suf
    obtain ⟨q, hq⟩ := hcr p r (by rw [← hp, hr0])
    unfold St.cur
    rw [hr1, hr0, hq]; rfl
  · refine h2 s h ?_
    rw [hr, hcur] 
    rcases hs with h | h | h
    · exact Or.inl h
    · exact Or.inr h
    · exact absurd (hcur.trans h) hc

theorem commentTrail_line (st : St) (h : Still T st) :
    (parseCommentTrail true).wp (fun a s => AtLine T s ∧ (s.rest = [] ∨ hasNl a.2.2 = true)) (fun _ _ => True) st := by
  have htr : ∀ (s : St) (x y : Str), Still T s → (s.rest = [] ∨ s.cur = 10 ∨ s.cur = 13) → P.wp (do
      let tr ← parseTrail
      return (x, y, tr)) (fun a s => AtLine T s ∧ (s.rest = [] ∨ hasNl a.2.2 = true)) (fun _ _ => True) s := by
    intro s x y h hs
    exact wp_bind (wp_mono (parseTrail_line hcr s h hs) (fun _ _ h => h) fun _ _ h => h)
  unfold parseCommentTrail
  refine wp_bind (wp_getSt (wp_ite (fun he => ⟨Or.inl (by simpa [St.atEnd] using he), Or.inl (by simpa [St.atEnd] using he)⟩) fun _ => ?_))
  refine wp_bind (h.mark fun s h hr _ => ?_)
  refine wp_bind (h.skip fun s1 h hr1 _ => ?_)
  refine wp_bind (wp_getSt (wp_ite (fun hc => ?_) fun _ => wp_ite (fun hc => ?_) fun _ => trivial))
  · rw [if_pos rfl]
    refine htr s1 _ _ h ?_
    simp only [St.atEnd, Bool.or_eq_true, List.isEmpty_iff, decide_eq_true_eq] at hc
    rcases hc with h | h
    · exact Or.inl h
    · exact Or.inr (Or.inl h)
  · refine wp_bind (wp_extract ?_)
    refine wp_bind (h.mark fun s2 h hr2 _ => ?_)
    refine wp_bind (h.step fun s3 h hr3 => ?_)
    refine wp_bind (h.skip fun s4 h hr4 _ => ?_)
    refine wp_bind (wp_getSt (wp_ite (fun _ => trivial) fun hc => ?_))
    refine wp_bind (wp_extract (wp_bind (h.mark fun s5 h hr5 _ => ?_)))
    rw [if_pos rfl]
    refine htr s5 _ _ h ?_
    have hcur : s5.cur = s4.cur := by unfold St.cur; rw [hr5]
    rw [hr5, hcur]
    by_cases he : s4.rest = []
    · exact Or.inl he
    · right
      have hn : isNl s4.cur = true := by
        simp only [St.atEnd, Bool.and_eq_true, Bool.not_eq_true', List.isEmpty_eq_false_iff, ne_eq, not_and] at hc
        simpa using hc he
      unfold isNl at hn
      simpa using hn
end

theorem value_quiet {T : Str} (hC : CalmValues T) : ∀ n,
    (∀ st : St, Still T st → ((123 ∉ T ∧ ¬ NoArray T) ∨ st.cur ≠ 91) →
      (parseValue n).wp (fun v s => s.loss = [] ∧ Padded T v.trivia.commentWs s.rest) (ErrV T st) st) ∧
    (∀ (st : St) (prev : Bool) (elems : List Item), Still T st → 123 ∉ T → ¬ NoArray T →
      (arrayLoop n prev elems).wp (fun _ s => s.loss = [])
        (fun e s => s.loss = [] ∧ (e.isUnexpectedChar = true → s.cur ≠ 93)) st) ∧
    (∀ (st : St) (tc : Option Bool) (c : Cont), Still T st → 123 ∈ T → c.parsed = true →
      (inlineParse n tc c).wp (fun _ s => s.loss = []) (fun _ s => s.loss = []) st) ∧
    (∀ (st : St) (b : Bool), Still T st →
      (parseKeyValue n b).wp (fun p s => s.loss = [] ∧ (b = false → Padded T p.2.trivia.commentWs s.rest) ∧ (b = true → AtLine T s))
        (fun _ s => s.loss = []) st) := by
  intro n
  induction n with
  | zero =>
    refine ⟨?_, ?_, ?_, ?_⟩
    · intro st h _; exact ⟨h.loss, fun _ h => (by cases h)⟩
    · intro st _ _ h _ _; exact ⟨h.loss, fun h => (by cases h)⟩
    · intro st _ _ h _ _; exact h.loss
    · intro st _ h; exact h.loss
  | succ n ih =>
    obtain ⟨ihV, ihA, ihI, ihK⟩ := ih
    refine ⟨?_, ?_, ?_, ?_⟩
    · intro st h hmode
      unfold parseValue
      refine wp_bind (h.mark fun s h hr hext => ?_)
      have hcur : s.cur = st.cur := by unfold St.cur; rw [hr]
      have hback : ∀ e : Err, ∀ s' : St, s'.loss = [] → s'.rest = s.rest → ErrV T st e s' := by
        intro e s' h1 h2
        exact ⟨h1, fun _ _ _ => by rw [h2, hr]⟩
      have hoth : ∀ e : Err, ∀ s' : St, s'.loss = [] → e.isUnexpectedChar = false → ErrV T st e s' := by
        intro e s' h1 h2
        exact ⟨h1, fun _ h _ => by rw [h2] at h; cases h⟩
      have hstr : ∀ d, d.isMultiline = false → P.wp (restoring (parseString d))
          (fun v s => s.loss = [] ∧ Padded T v.trivia.commentWs s.rest) (ErrV T st) s := by
        intro d hd
        refine wp_restoring (h.call (mute_parseString d) (parseString_keeps d hd s) ?_ ?_)
        · rintro a s' h1 ⟨ty, x, o, rfl, _⟩
          exact ⟨h1.loss, padded_nil _ _⟩
        · intro e s' h1
          exact hback _ _ h1.loss rfl
      have hbool : ∀ w b, P.wp (parseBool w b) (fun v s => s.loss = [] ∧ Padded T v.trivia.commentWs s.rest) (ErrV T st) s := by
        intro w b
        unfold P.wp parseBool
        by_cases hp : w.isPrefixOf s.rest = true
        · rw [if_pos hp]; exact ⟨h.loss, padded_nil _ _⟩
        · rw [if_neg hp]; exact hback _ _ h.loss rfl
      refine wp_bind (wp_getSt ?_)
      refine wp_ite (fun _ => hstr _ rfl) fun _ => wp_ite (fun _ => hstr _ rfl) fun _ => wp_ite (fun _ => hbool _ _) fun _ =>
        wp_ite (fun _ => hbool _ _) fun _ => wp_ite (fun hc => ?_) fun _ => wp_ite (fun hc => ?_) fun _ =>
        wp_ite (fun _ => ?_) fun _ => wp_ite (fun _ => ?_) fun _ => hback _ _ h.loss rfl
      · obtain ⟨hb, ha⟩ := hmode.resolve_right (by rw [← hcur]; exact fun h => h hc)
        refine wp_bind (h.stepE (fun s1 h hr1 => ?_) fun s' h => hoth _ _ h rfl)
        refine wp_bind (wp_mono (ihA s1 _ _ h hb ha) ?_ ?_)
        · intro l s' hl
          exact ⟨hl, padded_nil _ _⟩
        · rintro e s' ⟨h1, h2⟩
          exact ⟨h1, fun _ hu hc => absurd hc (h2 hu)⟩
      · have hb := mem_of_cur h.suf hc (by decide)
        have hno : ∀ e (s' : St), s'.loss = [] → ErrV T st e s' := fun e s' h => ⟨h, fun hn => absurd hb hn⟩
        refine wp_bind (h.stepE (fun s1 h hr1 => ?_) fun s' h => hoth _ _ h rfl)
        refine wp_bind (wp_mono (ihI s1 _ _ h hb rfl) ?_ ?_)
        · intro l s' hl
          exact ⟨hl, padded_nil _ _⟩
        · intro e s' h1
          exact hno _ _ h1
      · refine wp_bind (h.skip fun s1 h hr1 he1 => ?_)
        refine wp_bind (wp_extract ?_)
        split
        · rename_i i hi
          obtain ⟨h1, h2, h3, h4⟩ := parseNumber_text hi
          refine ⟨h.loss, ?_⟩
          rw [h2]; exact padded_nil _ _
        · exact hoth _ _ h.loss rfl
      · refine wp_mono (wp_both (mute_parseDigits s) (wp_both (other_parseDigits s) (parseDigits_pad s h.suf hext))) ?_ ?_
        · rintro a s' ⟨h1, _, h2⟩
          exact ⟨h1.trans h.loss, h2⟩
        · rintro e s' ⟨h1, h2, _⟩
          exact hoth _ _ (h1.trans h.loss) h2
    · intro st prev elems h hb ha
      have hnopad : ∀ d ws r, ¬ PadDate T d ws r := hC.date.resolve_left fun h => ha h.1
      unfold arrayLoop
      refine wp_bind (wp_getSt ?_)
      refine wp_bind (h.skip fun s h hr _ => ?_)
      refine wp_bind (wp_getSt (wp_ite (fun _ => ihA s _ _ h hb ha) fun _ => wp_ite (fun hc => ?_) fun _ =>
        wp_ite (fun _ => ihA s _ _ h hb ha) fun _ => wp_ite (fun _ => ?_) fun _ => ?_))
      · refine wp_bind (wp_mono (wp_both (mute_parseCommentTrail false s) (wp_both (parseCommentTrail_array s hc) (commentTrail_other s hc))) ?_ ?_)
        · rintro a s1 ⟨h1, h2, _⟩
          exact ihA s1 _ _ ⟨h2.suf.trans h.suf, h1.trans h.loss⟩ hb ha
        · rintro e s1 ⟨h1, _, h2⟩
          exact ⟨h1.trans h.loss, fun hu => by rw [h2] at hu; cases hu⟩
      · refine wp_ite (fun _ => ?_) fun _ => wp_ite (fun _ => ?_) fun hc => ?_
        · refine wp_bind (h.stepE (fun s1 h _ => ihA s1 _ _ h hb ha) fun s' h => ⟨h, fun h => (by cases h)⟩)
        · exact wp_bind (h.step fun s1 h _ => h.loss)
        · exact ⟨h.loss, fun _ => hc⟩
      · have hv := h.add (ihV s h (Or.inl ⟨hb, ha⟩)) ((value_keeps n).1 s)
        refine wp_congr ?_ (wp_match (m := parseValue n) (f := fun v => do
              note (!v.trivia.commentWs.isEmpty) .dateWs
              arrayLoop n true (elems ++ [v])) (g := fun st0 e st1 =>
                if e.isUnexpectedChar then
                  if st1.cur = 93 then (do
                    note (st1.rest.length != st0.rest.length) .swallowed
                    step
                    return elems) st1
                  else fail .unexpectedChar st1
                else .err e st1) ?_)
        · rcases parseValue n s with ⟨v, s1⟩ | ⟨e, s1⟩ <;> rfl
        refine wp_mono hv ?_ ?_
        · rintro v s1 ⟨h1, h2, h3⟩
          have hcw : v.trivia.commentWs = [] := by
            by_cases hcw : v.trivia.commentWs = []
            · exact hcw
            · obtain ⟨d, hd⟩ := h2 hcw
              exact absurd hd (hnopad _ _ _)
          refine wp_bind (h1.note (by rw [hcw]; rfl) (ihA s1 _ _ h1 hb ha))
        · rintro e s1 ⟨h1, h2⟩
          have hs1 : Still s1.rest s1 := ⟨List.suffix_refl _, h1⟩
          by_cases hu : e.isUnexpectedChar = true
          · by_cases hc : s1.cur = 93
            · refine wp_congr (m' := do
                  note (s1.rest.length != s.rest.length) .swallowed
                  step
                  return elems) ?_ ?_
              · rw [if_pos hu, if_pos hc]
              · have := h2 hb hu hc
                refine wp_bind (hs1.note (by simp [this]) ?_)
                exact wp_bind (hs1.step fun s2 h _ => h.loss)
            · exact wp_congr (m' := fail .unexpectedChar) ((if_pos hu).trans (if_neg hc)) ⟨h1, fun _ => hc⟩
          · exact wp_congr (m' := raise e) (if_neg hu) ⟨h1, fun h => absurd h hu⟩
    · intro st tc c h hb hp
      have hnopad : ∀ d ws r, ¬ PadDate T d ws r := hC.date.resolve_left fun h => h.2 hb
      have hcomma := (hC.brace.resolve_left fun h => h hb).2
      unfold inlineParse
      refine wp_bind (wp_getSt (wp_bind (h.skip fun s h hr _ => ?_)))
      refine wp_bind (h.call (mute_addWs _ _) (addWs_keeps c _ s) (fun c1 s1 h hc1 => ?_) fun _ s' h => h.loss)
      have hp1 := (hc1.2 hp).1
      refine wp_bind (wp_getSt (wp_ite (fun _ => ?_) fun _ => wp_ite (fun _ => h.loss) fun _ => wp_ite (fun _ => h.loss) fun _ => ?_))
      · exact wp_bind (h.step fun s2 h _ => h.loss)
      · refine wp_bind (wp_mono (h.add (ihK s1 false h) ((value_keeps n).2.2.2 s1 false)) ?_ fun _ _ h => h)
        rintro ⟨key, val⟩ s2 ⟨h, ⟨hpad, _⟩, k, u, sep, hpair⟩
        refine wp_bind (wp_lift (fun r hr' => ?_) fun _ _ => h.loss)
        obtain ⟨c2, mv⟩ := r
        obtain ⟨e, _, hb2, hp2, hmv⟩ := append_value hp1 hpair.simple hr'
        refine wp_bind (h.note hmv ?_)
        refine wp_bind (wp_getSt (wp_bind (h.skip fun s3 h hr3 _ => ?_)))
        refine wp_bind (h.call (mute_addWs _ _) (addWs_keeps c2 _ s3) (fun c3 s4 h hc3 => ?_) fun _ s' h => h.loss)
        have hp3 := (hc3.2 hp2).1
        have hcw : val.trivia.commentWs = [] := by
          by_cases hcw : val.trivia.commentWs = []
          · exact hcw
          · obtain ⟨d, hd⟩ := hpad rfl hcw
            exact absurd hd (hnopad _ _ _)
        refine wp_bind (wp_getSt (wp_bind (h.note (by rw [hcw]; rfl) ?_)))
        refine wp_ite (fun hc => ?_) fun _ => ihI s4 _ _ h hb hp3
        refine wp_bind (h.note ?_ ?_)
        · rw [Bool.not_eq_false', List.isEmpty_iff]
          by_cases hne : s2.rest.takeWhile isSpaces = []
          · exact hne
          · exfalso
            obtain ⟨r, hr4⟩ := cur_cons hc (by decide)
            rw [hc3.1, hr3] at hr4
            have hlast := List.dropLast_concat_getLast hne
            have hmem := List.getLast_mem hne
            have hall := List.all_takeWhile (l := s2.rest) (p := isSpaces)
            rw [List.all_eq_true] at hall
            refine hcomma _ (hall _ hmem) ?_
            obtain ⟨p, hp⟩ := ‹Still T s2›.suf
            refine ⟨p ++ (s2.rest.takeWhile isSpaces).dropLast, r, ?_⟩
            rw [← hp]
            conv => rhs; rw [← List.takeWhile_append_dropWhile (p := isSpaces) (l := s2.rest), hr4, ← hlast]
            simp
        · exact wp_bind (h.stepE (fun s5 h _ => ihI s5 _ _ h hb hp3) fun s' h => h)
    · intro st b h
      unfold parseKeyValue
      refine wp_bind (h.mark fun s h hr he => ?_)
      refine wp_bind (h.skip fun s1 h hr1 he1 => ?_)
      refine wp_bind (wp_extract ?_)
      refine wp_bind (h.call mute_parseKeyHere (parseKeyHere_keeps s1) (fun k s2 h _ => ?_) fun _ s' h => h.loss)
      refine wp_bind (wp_mono (wp_both (mute_parseSep s2) (wp_both (parseSep_keeps s2) (parseSep_eq s2))) ?_ fun _ _ h' => h'.1.trans h.loss)
      rintro sep s3 ⟨hm, hk, a, ws, hsep, hws⟩
      have h3 : Still T s3 := ⟨hk.suf.trans h.suf, hm.trans h.loss⟩
      have hmode : (123 ∉ T ∧ ¬ NoArray T) ∨ s3.cur ≠ 91 := by
        by_cases hc : s3.cur = 91
        · obtain ⟨r, hr3⟩ := cur_cons hc (by decide)
          have hna : ¬ NoArray T := by
            intro hna
            refine hna ws hws ?_
            obtain ⟨p, hp⟩ := h.suf
            refine ⟨p ++ a, r, ?_⟩
            rw [← hp, hsep, hr3]; simp
          exact Or.inl ⟨hC.brace.resolve_right fun h => hna h.1, hna⟩
        · exact Or.inr hc
      refine wp_bind (wp_mono (h3.add (ihV s3 h3 hmode) ((value_keeps n).1 s3)) ?_ fun _ _ h => h.1)
      rintro v s4 ⟨h, hpad, hval⟩
      refine wp_ite (fun hb => ?_) fun hb => ?_
      · refine wp_bind (h.call (mute_parseCommentTrail true) ((parseCommentTrail_keeps s4).also (wp_both (commentTrail_hash true s4) (commentTrail_line hC.cr s4 h))) (fun t s5 h5 ht => ?_) fun _ s' h => h.loss)
        obtain ⟨cws, comment, trail⟩ := t
        refine wp_bind (h5.note ?_ ?_)
        · rcases hcw : v.trivia.commentWs with _ | ⟨w, ws'⟩
          · rfl
          rcases hcs : cws with _ | ⟨c0, cs⟩
          · rw [Bool.and_eq_false_iff]; exact Or.inr rfl
          exfalso
          obtain ⟨d, hd⟩ := hpad (by rw [hcw]; simp)
          obtain ⟨⟨ht1, ht2, ht3⟩, ht4, _⟩ := ht
          have ht1 : s4.rest = (cws ++ comment ++ trail) ++ s5.rest := ht1
          have hc0 : isSpTabCr c0 = true := ht2 c0 (by show c0 ∈ cws; rw [hcs]; simp)
          have hs4 : s4.rest = c0 :: (cs ++ comment ++ trail ++ s5.rest) := by rw [ht1, hcs]; simp
          have hend := hd.stop _ _ hs4
          have hc9 : c0 = 9 ∨ c0 = 13 := by
            unfold isSpTabCr at hc0
            unfold isDateEnd at hend
            simp only [Bool.or_eq_true, beq_iff_eq] at hc0 hend
            omega
          rcases hc9 with rfl | rfl
          · rw [hs4] at hd
            exact hC.tab _ _ _ hd
          · obtain ⟨p, hp⟩ := h.suf
            obtain ⟨q, hq⟩ := hC.cr p _ (by rw [← hp, hs4])
            rcases cs with _ | ⟨c1, cs⟩
            · have hcm := ht3 (by show cws ≠ []; rw [hcs]; simp)
              rcases ht4 with h0 | ⟨r, h0⟩
              · exact hcm h0
              · have h0 : comment = 35 :: r := h0
                rw [h0] at hq
                simp at hq
            · simp only [List.cons_append, List.cons.injEq] at hq
              have : isSpTabCr c1 = true := ht2 c1 (by show c1 ∈ cws; rw [hcs]; simp)
              rw [hq.1] at this; cases this
        · exact ⟨h5.loss, fun hf => by (rw [hf] at hb; cases hb), fun _ => ht.2.2.1⟩
      · refine ⟨h.loss, fun _ => ?_, fun hf => absurd hf hb⟩
        show Padded T (v.setTrivia _).trivia.commentWs s4.rest
        rw [setTrivia_triv hval.simple]
        exact hpad

end Tomlkit
