import Verif.Proofs.FlatRows
import Verif.Proofs.QuietValues
/-!
# What a value parser reads does not depend on what comes after it

`Rel t t' l B p p' u e a`: if `p` succeeds on the text `u ++ t` with an empty log and stops within `u`, then `p'` does the same on
the text `u ++ t'`. When `B` fails, `p` has to stop before the end of `u`.
-/
namespace Tomlkit

/-- text is only consumed, and the log only grows -/
def Mono {α : Type} (m : P α) : Prop := ∀ st x s, m st = .ok x s → s.rest <:+ st.rest ∧ st.loss <+: s.loss

/-- something is consumed -/
def Eats {α : Type} (m : P α) : Prop := ∀ st x s, m st = .ok x s → s.loss = [] → s.rest.length < st.rest.length

section
variable {α β : Type}

theorem bind_ok {p : P β} {f : β → P α} {st : St} {x : α} {s : St} (h : (p >>= f) st = .ok x s) :
    ∃ b s2, p st = .ok b s2 ∧ f b s2 = .ok x s := by
  rw [P.bind_def] at h
  rcases hp : p st with ⟨b, s2⟩ | ⟨e, s2⟩ <;> rw [hp] at h
  · exact ⟨b, s2, rfl, h⟩
  · cases h

theorem Mono.bind {p : P β} {f : β → P α} (h : Mono p) (hf : ∀ b, Mono (f b)) : Mono (p >>= f) := by
  intro st x s hr
  obtain ⟨b, s2, h1, h2⟩ := bind_ok hr
  obtain ⟨a1, a2⟩ := h _ _ _ h1
  obtain ⟨b1, b2⟩ := hf _ _ _ _ h2
  exact ⟨b1.trans a1, a2.trans b2⟩

theorem mono_same {m : P α} (h : ∀ st x s, m st = .ok x s → s.rest = st.rest ∧ s.loss = st.loss) : Mono m := by
  intro st x s hr
  obtain ⟨h1, h2⟩ := h st x s hr
  rw [h1, h2]
  exact ⟨List.suffix_refl _, List.prefix_refl _⟩

theorem mono_pure (a : α) : Mono (pure a : P α) := mono_same fun st x s h => by cases h; exact ⟨rfl, rfl⟩
theorem mono_getSt : Mono getSt := mono_same fun st x s h => by cases h; exact ⟨rfl, rfl⟩
theorem mono_mark : Mono mark := mono_same fun st x s h => by cases h; exact ⟨rfl, rfl⟩
theorem mono_extract : Mono extract := mono_same fun st x s h => by cases h; exact ⟨rfl, rfl⟩
theorem mono_fail (k : PKind) : Mono (fail k : P α) := fun st x s h => by cases h
theorem mono_raise (e : Err) : Mono (raise e : P α) := fun st x s h => by cases h
theorem mono_skip (p : Chr → Bool) : Mono (skip p) := fun st x s h => by
  cases h
  exact ⟨List.dropWhile_suffix _, List.prefix_refl _⟩
theorem mono_stepN (n : Nat) : Mono (stepN n) := fun st x s h => by
  cases h
  exact ⟨List.drop_suffix _ _, List.prefix_refl _⟩
theorem mono_step : Mono step := by
  rintro ⟨r, e, a, l⟩ x s h
  rcases r with _ | ⟨c, r⟩ <;> cases h
  · exact ⟨List.suffix_refl _, List.prefix_refl _⟩
  · exact ⟨List.suffix_cons _ _, List.prefix_refl _⟩
theorem mono_stepE : Mono stepE := by
  rintro ⟨r, e, a, l⟩ x s h
  rcases r with _ | ⟨c, _ | ⟨d, r⟩⟩ <;> cases h
  exact ⟨List.suffix_cons _ _, List.prefix_refl _⟩
theorem mono_note (b : Bool) (l : Loss) : Mono (note b l) := by
  intro st x s h
  cases b <;> cases h
  · exact ⟨List.suffix_refl _, List.prefix_refl _⟩
  · exact ⟨List.suffix_refl _, List.prefix_append _ _⟩
theorem mono_lift (x : Except Err α) : Mono (lift x) := mono_same fun st y s h => by
  rcases x with e | a <;> cases h
  exact ⟨rfl, rfl⟩
theorem Mono.ite {c : Prop} [Decidable c] {m m' : P α} (h : Mono m) (h' : Mono m') : Mono (if c then m else m') := by
  split
  · exact h
  · exact h'
theorem Mono.restoring {m : P α} (h : Mono m) : Mono (restoring m) := by
  intro st x s hr
  unfold Tomlkit.restoring at hr
  rcases hm : m st with ⟨b, s2⟩ | ⟨e, s2⟩ <;> rw [hm] at hr <;> cases hr
  exact h _ _ _ hm

theorem mono_keeps {m : P α} {R : St → α → St → Prop} (h : ∀ st, Keeps m (R st) st) : Mono m := by
  intro st x s hr
  have := h st
  unfold Keeps P.wp at this
  rw [hr] at this
  exact ⟨this.suf, this.loss⟩

theorem keeps_fact {m : P α} {R : α → St → Prop} {st : St} (h : Keeps m R st) {x : α} {s : St} (hr : m st = .ok x s)
    (hl : s.loss = []) : R x s := by
  unfold Keeps P.wp at h
  rw [hr] at h
  exact h.fact hl

theorem Eats.left {p : P β} {f : β → P α} (h : Eats p) (hf : ∀ b, Mono (f b)) : Eats (p >>= f) := by
  intro st x s hr hl
  obtain ⟨b, s2, h1, h2⟩ := bind_ok hr
  obtain ⟨b1, b2⟩ := hf _ _ _ _ h2
  have := h _ _ _ h1 (loss_nil b2 hl)
  have := b1.length_le
  omega

theorem Eats.right {p : P β} {f : β → P α} (h : Mono p) (hf : ∀ b, Eats (f b)) : Eats (p >>= f) := by
  intro st x s hr hl
  obtain ⟨b, s2, h1, h2⟩ := bind_ok hr
  have := hf _ _ _ _ h2 hl
  have := (h _ _ _ h1).1.length_le
  omega

theorem Eats.ite {c : Prop} [Decidable c] {m m' : P α} (h : Eats m) (h' : Eats m') : Eats (if c then m else m') := by
  split
  · exact h
  · exact h'
theorem eats_fail (k : PKind) : Eats (fail k : P α) := fun st x s h => by cases h
theorem eats_raise (e : Err) : Eats (raise e : P α) := fun st x s h => by cases h
theorem eats_stepE : Eats stepE := by
  rintro ⟨r, e, a, l⟩ x s h
  rcases r with _ | ⟨c, _ | ⟨d, r⟩⟩ <;> cases h
  simp
end

/-- unfolds binds and conditionals -/
macro "mono" : tactic => `(tactic| repeat' with_reducible first
  | exact mono_pure _ | exact mono_getSt | exact mono_mark | exact mono_extract | exact mono_skip _ | exact mono_stepN _
  | exact mono_fail _ | exact mono_raise _ | exact mono_step | exact mono_stepE | exact mono_lift _ | exact mono_note _ _
  | refine Mono.bind ?_ fun _ => ?_ | refine Mono.ite ?_ ?_ | assumption | split | (dsimp only; split))

theorem mono_parseTrail : Mono parseTrail := mono_keeps parseTrail_keeps
theorem mono_parseCommentTrail (b : Bool) : Mono (parseCommentTrail b) := by
  have := mono_parseTrail
  unfold parseCommentTrail
  mono
theorem mono_parseEscapedChar (b : Bool) : Mono (parseEscapedChar b) := mono_keeps (parseEscapedChar_keeps b)
theorem mono_strLoop (d : StrType) (n : Nat) (v : Str) (e : Bool) : Mono (strLoop d n v e) := mono_keeps (strLoop_keeps d n v e)
theorem mono_strBody (d : StrType) : Mono (strBody d) := mono_keeps (strBody_keeps d)
theorem mono_skipFirstNl (d : StrType) : Mono (skipFirstNl d) := by
  unfold skipFirstNl
  mono
theorem mono_parseString (d : StrType) : Mono (parseString d) := by
  have := mono_strBody d
  have := mono_strBody d.toggle
  unfold parseString
  mono
theorem mono_parseKey (n : Nat) : Mono (parseKey n) := mono_keeps (parseKey_keeps n)
theorem mono_parseKeyHere : Mono parseKeyHere := mono_keeps parseKeyHere_keeps
theorem mono_parseSep : Mono parseSep := mono_keeps parseSep_keeps
theorem mono_addWs (c : Cont) (raw : Str) : Mono (addWs c raw) := by
  unfold addWs
  mono
theorem mono_parseValue (n : Nat) : Mono (parseValue n) := mono_keeps (value_keeps n).1
theorem mono_arrayLoop (n : Nat) (p : Bool) (l : List Item) : Mono (arrayLoop n p l) := mono_keeps fun st => (value_keeps n).2.1 st p l
theorem mono_inlineParse (n : Nat) (p : Option Bool) (c : Cont) : Mono (inlineParse n p c) := mono_keeps fun st => (value_keeps n).2.2.1 st p c
theorem mono_parseKeyValue (n : Nat) (b : Bool) : Mono (parseKeyValue n b) := mono_keeps fun st => (value_keeps n).2.2.2 st b

theorem strLoop_long (d : StrType) (n : Nat) (v : Str) (esc : Bool) {st : St} {x : Item} {s : St} (h : strLoop d n v esc st = .ok x s)
    (hl : s.loss = []) : s.rest.length + d.value.length ≤ st.rest.length := by
  obtain ⟨_, o, u, _, h1, rfl⟩ := keeps_fact (strLoop_keeps d n v esc st) h hl
  rw [h1]
  simp only [List.length_append]
  omega
theorem value_pos (d : StrType) : 0 < d.value.length := by cases d <;> decide
theorem eats_strLoop (d : StrType) (n : Nat) (v : Str) (esc : Bool) : Eats (strLoop d n v esc) := by
  intro st x s h hl
  have := strLoop_long d n v esc h hl
  have := value_pos d
  omega
theorem eats_strBody (d : StrType) : Eats (strBody d) := by
  intro st x s h hl
  obtain ⟨_, o, _, h1⟩ := keeps_fact (strBody_keeps d st) h hl
  have := value_pos d
  rw [h1]
  simp only [List.length_append]
  omega
theorem eats_parseString (d : StrType) : Eats (parseString d) := by
  unfold parseString
  refine Eats.right mono_getSt fun _ => Eats.ite (eats_fail _) (Eats.left eats_stepE fun _ => ?_)
  have := mono_strBody d
  have := mono_strBody d.toggle
  mono
theorem eats_parseValue (n : Nat) : Eats (parseValue n) := by
  intro st x s h hl
  have hv := keeps_fact ((value_keeps n).1 st) h hl
  obtain ⟨c, h1, _⟩ := hv.last
  have : x.asString ≠ [] := by rintro h; rw [h] at h1; cases h1
  have := List.length_pos_iff.2 this
  rw [hv.text]
  simp only [List.length_append]
  omega

theorem eats_step_at {α : Type} {st : St} (hc : st.cur ≠ 0) {f : Unit → P α} (hf : ∀ b, Mono (f b)) {x : α} {s : St}
    (h : (step >>= f) st = .ok x s) : s.rest.length < st.rest.length := by
  obtain ⟨b, s2, h1, h2⟩ := bind_ok h
  have h3 := (hf _ _ _ _ h2).1.length_le
  rcases st with ⟨_ | ⟨c, r⟩, e, a, l⟩
  · exact absurd rfl hc
  · cases h1
    simp only [List.length_cons] at h3 ⊢
    omega

/-- the value of an array element, or the end of the array, parser.py:588-598 -/
def arrayElem (n : Nat) (elems : List Item) : P (List Item) := fun st0 =>
  match parseValue n st0 with
  | .ok v st1 => (do
      note (!v.trivia.commentWs.isEmpty) .dateWs
      arrayLoop n true (elems ++ [v])) st1
  | .err e st1 =>
    if e.isUnexpectedChar then
      if st1.cur = 93 then (do
        note (st1.rest.length != st0.rest.length) .swallowed
        step
        return elems) st1
      else fail .unexpectedChar st1
    else .err e st1

/-- what follows the white space in an array, parser.py:568-610 -/
def arrayTail (n : Nat) (prev : Bool) (elems : List Item) (indent : Str) : P (List Item) := do
  let st ← getSt
  if indent.any isNl then arrayLoop n prev (elems ++ [.ws indent false])
  else if st.cur = 35 then
    let (cws, comment, trail) ← parseCommentTrail false
    arrayLoop n prev (elems ++ [.comment ⟨indent, cws, comment, trail⟩])
  else if !indent.isEmpty then arrayLoop n prev (elems ++ [.ws indent false])
  else if prev then
    if st.cur = 44 then
      stepE
      arrayLoop n false (elems ++ [.ws [44] false])
    else if st.cur = 93 then
      step
      return elems
    else fail .unexpectedChar
  else arrayElem n elems

theorem arrayLoop_tail (n : Nat) (prev : Bool) (elems : List Item) (st : St) :
    arrayLoop (n + 1) prev elems st = arrayTail n prev elems (st.rest.takeWhile isWs)
      ⟨st.rest.dropWhile isWs, st.ext ++ st.rest.takeWhile isWs, st.aot, st.loss⟩ := by
  rw [arrayLoop]; rfl

theorem arrayElem_ok {n : Nat} {elems : List Item} {st0 : St} {v : Item} {st1 : St} (h : parseValue n st0 = .ok v st1)
    (hw : v.trivia.commentWs = []) : arrayElem n elems st0 = arrayLoop n true (elems ++ [v]) st1 := by
  unfold arrayElem
  rw [h]
  show (note (!v.trivia.commentWs.isEmpty) .dateWs >>= fun _ => arrayLoop n true (elems ++ [v])) st1 = _
  rw [hw]
  rfl

theorem arrayElem_end (n : Nat) (elems : List Item) (r e a l) :
    arrayElem (n + 1) elems ⟨93 :: r, e, a, l⟩ = .ok elems ⟨r, [93], a, l⟩ := by
  unfold arrayElem
  rw [parseValue_nostart n r e a l (by unfold NoStart; omega)]
  show (note ((93 :: r).length != (93 :: r).length) .swallowed >>= fun _ => step >>= fun _ => pure elems) ⟨93 :: r, [], a, l⟩ = _
  rw [bne_self_eq_false]
  rfl

theorem arrayElem_cases {n : Nat} {elems : List Item} {st0 : St} {l : List Item} {s : St}
    (h : arrayElem n elems st0 = .ok l s) (hl : s.loss = []) :
    (∃ v st1, parseValue n st0 = .ok v st1 ∧ v.trivia.commentWs = [] ∧ arrayLoop n true (elems ++ [v]) st1 = .ok l s) ∨
    (∃ r, st0.rest = 93 :: r ∧ l = elems ∧ s = ⟨r, [93], st0.aot, st0.loss⟩) := by
  have h0 := h
  unfold arrayElem at h
  rcases hv : parseValue n st0 with ⟨v, st1⟩ | ⟨e, st1⟩ <;> rw [hv] at h
  · have h : (note (!v.trivia.commentWs.isEmpty) .dateWs >>= fun _ => arrayLoop n true (elems ++ [v])) st1 = .ok l s := h
    by_cases hw : v.trivia.commentWs = []
    · rw [hw] at h
      exact .inl ⟨v, st1, rfl, hw, h⟩
    · have : (!v.trivia.commentWs.isEmpty) = true := by simpa using hw
      rw [this, note_bind, if_pos rfl] at h
      have := loss_nil (mono_arrayLoop _ _ _ _ _ _ h).2 hl
      simp at this
  · right
    by_cases hu : e.isUnexpectedChar = true
    · by_cases hc : st1.cur = 93
      · have h : (note (st1.rest.length != st0.rest.length) .swallowed >>= fun _ => step >>= fun _ => pure elems) st1 = .ok l s :=
          ((if_pos hu).trans (if_pos hc)).symm.trans h
        have hk := (value_keeps n).1 st0
        unfold Keeps P.wp at hk
        rw [hv] at hk
        by_cases hlen : st1.rest.length = st0.rest.length
        · have hrest : st1.rest = st0.rest := hk.2.eq_of_length hlen
          obtain ⟨r, hr⟩ := cur_cons hc (by decide)
          rw [hrest] at hr
          rcases n with _ | n
          · rw [parseValue] at hv
            cases hv
            cases hu
          · rcases st0 with ⟨r0, e0, a0, l0⟩
            simp only at hr
            subst hr
            rw [arrayElem_end] at h0
            cases h0
            exact ⟨r, rfl, rfl, rfl⟩
        · have : (st1.rest.length != st0.rest.length) = true := by simpa using hlen
          rw [this, note_bind, if_pos rfl] at h
          have h2 : Mono (step >>= fun _ => pure elems : P (List Item)) := by mono
          have := loss_nil (h2 _ _ _ h).2 hl
          simp at this
      · have h : fail .unexpectedChar st1 = .ok l s := ((if_pos hu).trans (if_neg hc)).symm.trans h
        cases h
    · have h : Res.err e st1 = .ok l s := (if_neg hu).symm.trans h
      cases h

theorem mono_arrayElem (n : Nat) (elems : List Item) : Mono (arrayElem n elems) := by
  intro st0 l s h
  unfold arrayElem at h
  rcases hv : parseValue n st0 with ⟨v, st1⟩ | ⟨e, st1⟩ <;> rw [hv] at h
  · have h : (note (!v.trivia.commentWs.isEmpty) .dateWs >>= fun _ => arrayLoop n true (elems ++ [v])) st1 = .ok l s := h
    obtain ⟨a1, a2⟩ := mono_parseValue n _ _ _ hv
    obtain ⟨b1, b2⟩ := Mono.bind (mono_note _ _) (fun _ => mono_arrayLoop _ _ _) _ _ _ h
    exact ⟨b1.trans a1, a2.trans b2⟩
  · by_cases hu : e.isUnexpectedChar = true
    · by_cases hc : st1.cur = 93
      · have h : (note (st1.rest.length != st0.rest.length) .swallowed >>= fun _ => step >>= fun _ => pure elems) st1 = .ok l s :=
          ((if_pos hu).trans (if_pos hc)).symm.trans h
        have hk := (value_keeps n).1 st0
        unfold Keeps P.wp at hk
        rw [hv] at hk
        have h2 : Mono (note (st1.rest.length != st0.rest.length) .swallowed >>= fun _ => step >>= fun _ => pure elems : P (List Item)) := by mono
        obtain ⟨b1, b2⟩ := h2 _ _ _ h
        exact ⟨b1.trans hk.2, hk.1.trans b2⟩
      · have h : fail .unexpectedChar st1 = .ok l s := ((if_pos hu).trans (if_neg hc)).symm.trans h
        cases h
    · have h : Res.err e st1 = .ok l s := (if_neg hu).symm.trans h
      cases h

theorem mono_arrayTail (n : Nat) (prev : Bool) (elems : List Item) (indent : Str) : Mono (arrayTail n prev elems indent) := by
  unfold arrayTail
  repeat' with_reducible first | exact mono_parseCommentTrail _ | exact mono_arrayLoop _ _ _ | exact mono_arrayElem _ _ | mono

theorem eats_arrayTail_of {n : Nat} (ih : ∀ (prev : Bool) (elems : List Item), Eats (arrayLoop n prev elems)) (prev : Bool)
    (elems : List Item) (indent : Str) : Eats (arrayTail n prev elems indent) := by
  intro S x s h hl
  unfold arrayTail at h
  rw [getSt_bind] at h
  by_cases c1 : indent.any isNl = true
  · rw [if_pos c1] at h; exact ih _ _ _ _ _ h hl
  rw [if_neg c1] at h
  by_cases c2 : S.cur = 35
  · rw [if_pos c2] at h
    exact Eats.right (mono_parseCommentTrail _) (fun b => by exact ih _ _) _ _ _ h hl
  rw [if_neg c2] at h
  by_cases c3 : (!indent.isEmpty) = true
  · rw [if_pos c3] at h; exact ih _ _ _ _ _ h hl
  rw [if_neg c3] at h
  by_cases c4 : prev = true
  · rw [if_pos c4] at h
    by_cases c5 : S.cur = 44
    · rw [if_pos c5] at h
      exact Eats.right mono_stepE (fun b => by exact ih _ _) _ _ _ h hl
    rw [if_neg c5] at h
    by_cases c6 : S.cur = 93
    · rw [if_pos c6] at h
      exact eats_step_at (by rw [c6]; decide) (fun _ => mono_pure _) h
    · rw [if_neg c6] at h; cases h
  · rw [if_neg c4] at h
    rcases arrayElem_cases h hl with ⟨v, st1, h1, _, h2⟩ | ⟨r, h1, _, rfl⟩
    · have := ih _ _ _ _ _ h2 hl
      have := (mono_parseValue n _ _ _ h1).1.length_le
      omega
    · rw [h1]; simp

theorem eats_arrayLoop : ∀ (n : Nat) (prev : Bool) (elems : List Item), Eats (arrayLoop n prev elems) := by
  intro n
  induction n with
  | zero => intro prev elems st x s h; rw [arrayLoop] at h; cases h
  | succ n ih =>
    intro prev elems st x s h hl
    rw [arrayLoop_tail] at h
    have hle := (List.dropWhile_suffix (l := st.rest) isWs).length_le
    have := eats_arrayTail_of ih _ _ _ _ _ _ h hl
    simp only at this
    omega

theorem eats_arrayTail (n : Nat) (prev : Bool) (elems : List Item) (indent : Str) : Eats (arrayTail n prev elems indent) :=
  eats_arrayTail_of (eats_arrayLoop n) _ _ _

/-- an inline table after its white space, parser.py:630-668 -/
def inlineTail (n : Nat) (tc : Option Bool) (c : Cont) : P Cont := do
  let st ← getSt
  if tc != some true && st.cur = 125 then
    step
    return c
  else if tc = some false || (tc = none && st.cur = 44) then fail .unexpectedChar
  else if tc = some true && (st.cur = 125 || st.cur = 44) then fail .unexpectedChar
  else
    let (key, val) ← parseKeyValue n false
    let r ← lift (Cont.append true c (some key) val)
    note r.2 .reordered
    let st ← getSt
    let raw := st.rest.takeWhile isSpaces
    skip isSpaces
    let c ← addWs r.1 raw
    let st ← getSt
    note (!val.trivia.commentWs.isEmpty) .dateWs
    if st.cur = 44 then
      note (!raw.isEmpty) .inlineWs
      stepE
      inlineParse n (some true) c
    else inlineParse n (some false) c

theorem inlineParse_tail (n : Nat) (tc : Option Bool) (c : Cont) (st : St) :
    inlineParse (n + 1) tc c st = (addWs c (st.rest.takeWhile isSpaces) >>= inlineTail n tc)
      ⟨st.rest.dropWhile isSpaces, st.ext ++ st.rest.takeWhile isSpaces, st.aot, st.loss⟩ := by
  rw [inlineParse]; rfl

theorem mono_inlineTail (n : Nat) (tc : Option Bool) (c : Cont) : Mono (inlineTail n tc c) := by
  unfold inlineTail
  repeat' with_reducible first | exact mono_parseKeyValue _ _ | exact mono_addWs _ _ | exact mono_inlineParse _ _ _ | mono

theorem eats_inlineTail_of {n : Nat} (ih : ∀ (tc : Option Bool) (c : Cont), Eats (inlineParse n tc c)) (tc : Option Bool) (c : Cont) :
    Eats (inlineTail n tc c) := by
  intro S x s h hl
  unfold inlineTail at h
  rw [getSt_bind] at h
  by_cases c1 : (tc != some true && decide (S.cur = 125)) = true
  · rw [if_pos c1] at h
    simp only [Bool.and_eq_true, decide_eq_true_eq] at c1
    exact eats_step_at (by rw [c1.2]; decide) (fun _ => mono_pure _) h
  rw [if_neg c1] at h
  by_cases c2 : (decide (tc = some false) || (decide (tc = none) && decide (S.cur = 44))) = true
  · rw [if_pos c2] at h; cases h
  rw [if_neg c2] at h
  by_cases c3 : (decide (tc = some true) && (decide (S.cur = 125) || decide (S.cur = 44))) = true
  · rw [if_pos c3] at h; cases h
  rw [if_neg c3] at h
  refine Eats.right (mono_parseKeyValue _ _) (fun b => ?_) _ _ _ h hl
  refine Eats.right (mono_lift _) fun r => Eats.right (mono_note _ _) fun _ => Eats.right mono_getSt fun _ =>
    Eats.right (mono_skip _) fun _ => Eats.right (mono_addWs _ _) fun _ => Eats.right mono_getSt fun _ =>
    Eats.right (mono_note _ _) fun _ => Eats.ite (Eats.right (mono_note _ _) fun _ => Eats.right mono_stepE fun _ => ih _ _) (ih _ _)

theorem eats_inlineParse : ∀ (n : Nat) (tc : Option Bool) (c : Cont), Eats (inlineParse n tc c) := by
  intro n
  induction n with
  | zero => intro prev elems st x s h; rw [inlineParse] at h; cases h
  | succ n ih =>
    intro tc c st x s h hl
    rw [inlineParse_tail] at h
    have := Eats.right (mono_addWs _ _) (fun _ => eats_inlineTail_of ih _ _) _ _ _ h hl
    have hle := (List.dropWhile_suffix (l := st.rest) isSpaces).length_le
    simp only at this
    omega

theorem eats_inlineTail (n : Nat) (tc : Option Bool) (c : Cont) : Eats (inlineTail n tc c) := eats_inlineTail_of (eats_inlineParse n) _ _

end Tomlkit
