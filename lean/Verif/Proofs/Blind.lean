import Verif.Proofs.Stable
import Verif.Proofs.LockDoc
/-!
# The parser does not look at its log
-/
namespace Tomlkit
open _root_.Spec Tomlkit.Spec

/-- the state with another log -/
def St.log (st : St) (l : List Loss) : St := { st with loss := l }

/-- two results that differ only in the first part of the log -/
inductive SameBut (l0 l : List Loss) {α : Type} : Res α → Res α → Prop
  | ok (x : α) (s : St) (d : List Loss) (h : s.loss = l0 ++ d) : SameBut l0 l (.ok x s) (.ok x (s.log (l ++ d)))
  | err (e : Err) (s : St) (d : List Loss) (h : s.loss = l0 ++ d) : SameBut l0 l (.err e s) (.err e (s.log (l ++ d)))

/-- the step does the same whatever is in the log -/
def Blind {α : Type} (p : P α) : Prop := ∀ st l, SameBut st.loss l (p st) (p (st.log l))

variable {α β : Type}

theorem SameBut.here {x : α} {st : St} {l : List Loss} : SameBut st.loss l (.ok x st) (.ok x (st.log l)) := by
  have := SameBut.ok (l0 := st.loss) (l := l) x st [] (by simp)
  rwa [List.append_nil] at this

theorem SameBut.refuse {e : Err} {st : St} {l : List Loss} : SameBut (α := α) st.loss l (.err e st) (.err e (st.log l)) := by
  have := SameBut.err (α := α) (l0 := st.loss) (l := l) e st [] (by simp)
  rwa [List.append_nil] at this

/-- a result, then another step -/
def Res.then' (r : Res α) (f : α → P β) : Res β := match r with | .ok a s => f a s | .err e s => .err e s

theorem SameBut.then {r r' : Res α} {l0 l : List Loss} (h : SameBut l0 l r r') {f : α → P β} (hf : ∀ x, Blind (f x)) :
    SameBut l0 l (r.then' f) (r'.then' f) := by
  cases h with
  | ok x s d h =>
    show SameBut l0 l (f x s) (f x (s.log (l ++ d)))
    have := hf x s (l ++ d)
    rw [h] at this
    generalize f x s = y at this ⊢
    generalize f x (s.log (l ++ d)) = y' at this ⊢
    cases this with
    | ok x s d' h => rw [List.append_assoc]; exact .ok _ _ _ (by rw [h, List.append_assoc])
    | err x s d' h => rw [List.append_assoc]; exact .err _ _ _ (by rw [h, List.append_assoc])
  | err e s d h => exact .err _ _ _ h

theorem bind_then (p : P α) (f : α → P β) (st : St) : (p >>= f) st = (p st).then' f := by
  rw [Tomlkit.P.bind_def]
  rcases p st with ⟨a, s⟩ | ⟨e, s⟩ <;> rfl

theorem Blind.bind {p : P α} {f : α → P β} (hp : Blind p) (hf : ∀ x, Blind (f x)) : Blind (p >>= f) := by
  intro st l
  rw [bind_then, bind_then]
  exact (hp st l).then hf

theorem Blind.pure (x : α) : Blind (Pure.pure x : P α) := fun _ _ => .here
theorem Blind.fail (k : PKind) : Blind (Tomlkit.fail k : P α) := fun _ _ => .refuse
theorem Blind.raise (k : Err) : Blind (Tomlkit.raise k : P α) := fun _ _ => .refuse
theorem Blind.getSt {f : St → P β} (h0 : ∀ st l, f (st.log l) = f st) (h : ∀ st, Blind (f st)) : Blind (Tomlkit.getSt >>= f) := by
  intro st l
  rw [getSt_bind, getSt_bind, h0]
  exact h st st l
theorem Blind.mark : Blind Tomlkit.mark := fun st l => SameBut.here (st := { st with ext := [] })
theorem Blind.extract : Blind Tomlkit.extract := fun _ _ => .here
theorem Blind.step : Blind Tomlkit.step := by
  rintro ⟨r, e, a, lg⟩ l
  rcases r with _ | ⟨c, r⟩
  · exact .here
  · exact SameBut.here (st := ⟨r, e ++ [c], a, lg⟩)
theorem Blind.skip (p : Chr → Bool) : Blind (Tomlkit.skip p) := by
  rintro ⟨r, e, a, lg⟩ l
  exact SameBut.here (st := ⟨r.dropWhile p, e ++ r.takeWhile p, a, lg⟩)
theorem Blind.stepN (n : Nat) : Blind (Tomlkit.stepN n) := by
  rintro ⟨r, e, a, lg⟩ l
  exact SameBut.here (st := ⟨r.drop n, e ++ r.take n, a, lg⟩)
theorem Blind.stepE : Blind Tomlkit.stepE := by
  rintro ⟨r, e, a, lg⟩ l
  rcases r with _ | ⟨c, _ | ⟨d, r⟩⟩
  · exact .refuse
  · exact SameBut.refuse (st := ⟨[], e ++ [c], a, lg⟩)
  · exact SameBut.here (st := ⟨d :: r, e ++ [c], a, lg⟩)
theorem Blind.note (b : Bool) (k : Loss) : Blind (Tomlkit.note b k) := by
  rintro ⟨r, e, a, lg⟩ l
  cases b
  · exact .here
  · exact SameBut.ok () ⟨r, e, a, lg ++ [k]⟩ [k] rfl
theorem Blind.lift (x : Except Err α) : Blind (Tomlkit.lift x) := by
  intro st l
  rcases x with e | a
  · exact .refuse
  · exact .here
theorem Blind.wrapErr (x : Except Err α) : Blind (Tomlkit.wrapErr x) := by
  intro st l
  rcases x with e | a
  · cases e <;> exact .refuse
  · exact .here
theorem Blind.ite {c : Prop} [Decidable c] {p q : P α} (h : Blind p) (h' : Blind q) : Blind (if c then p else q) := by
  split
  · exact h
  · exact h'
theorem Blind.restoring {p : P α} (h : Blind p) : Blind (Tomlkit.restoring p) := by
  intro st l
  have := h st l
  unfold Tomlkit.restoring
  generalize p st = y at this ⊢
  generalize p (st.log l) = y' at this ⊢
  cases this with
  | ok x s d h => exact .ok _ _ _ h
  | err e s d h => exact .err e { s with rest := st.rest, ext := st.ext } d h
theorem Blind.peeking {p : P α} (h : Blind p) : Blind (Tomlkit.peeking p) := by
  intro st l
  have := h st l
  unfold Tomlkit.peeking
  generalize p st = y at this ⊢
  generalize p (st.log l) = y' at this ⊢
  cases this with
  | ok x s d h => exact .here
  | err e s d h => exact .refuse

theorem Blind.getSt' {f : St → P β} (h : ∀ st, Blind (f st)) (h0 : ∀ st l, f (st.log l) = f st) : Blind (Tomlkit.getSt >>= f) := .getSt h0 h

/-- takes a step apart -/
macro "blind" : tactic => `(tactic| repeat' first
  | (with_reducible first
    | exact Blind.pure _ | exact Blind.mark | exact Blind.extract | exact Blind.skip _ | exact Blind.stepN _
    | exact Blind.fail _ | exact Blind.raise _ | exact Blind.step | exact Blind.stepE | exact Blind.lift _ | exact Blind.wrapErr _ | exact Blind.note _ _
    | refine Blind.getSt' (fun _ => ?_) ?_ | refine Blind.bind ?_ fun _ => ?_ | refine Blind.ite ?_ ?_ | assumption | split)
  | exact fun _ _ => rfl
  | (dsimp only; with_reducible split) | (intro jp; dsimp only))

theorem blind_parseTrail : Blind parseTrail := by
  unfold parseTrail
  blind

theorem blind_parseCommentTrail (t : Bool) : Blind (parseCommentTrail t) := by
  have := blind_parseTrail
  unfold parseCommentTrail
  blind

theorem blind_parseEscapedChar (b : Bool) : Blind (parseEscapedChar b) := by
  unfold parseEscapedChar
  blind

theorem blind_strLoop (d : StrType) : ∀ (n : Nat) (v : Str) (e : Bool), Blind (strLoop d n v e)
  | 0, _, _ => .raise _
  | n + 1, v, e => by
    have h1 := blind_parseEscapedChar d.isMultiline
    have ih := blind_strLoop d n
    unfold strLoop
    repeat' first | with_reducible exact ih _ _ | blind

theorem blind_skipFirstNl (d : StrType) : Blind (skipFirstNl d) := by
  unfold skipFirstNl
  blind

theorem blind_strBody (d : StrType) : Blind (strBody d) := by
  have h1 := blind_skipFirstNl d
  have h2 := blind_strLoop d
  unfold strBody
  repeat' first | with_reducible exact h2 _ _ _ | blind

theorem blind_parseString (d : StrType) : Blind (parseString d) := by
  have h1 := blind_strBody d
  have h2 := blind_strBody d.toggle
  unfold parseString
  blind

theorem blind_parseKey : ∀ n, Blind (parseKey n)
  | 0 => .raise _
  | n + 1 => by
    have h1 := blind_parseString
    have ih := blind_parseKey n
    unfold parseKey
    repeat' first | with_reducible exact h1 _ | blind

theorem blind_parseKeyHere : Blind parseKeyHere := by
  have h := blind_parseKey
  unfold parseKeyHere
  repeat' first | with_reducible exact h _ | blind

theorem blind_parseBool (w : Str) (v : Bool) : Blind (parseBool w v) := by
  rintro ⟨r, e, a, lg⟩ l
  unfold parseBool
  by_cases h : w.isPrefixOf r = true
  · rw [if_pos (show w.isPrefixOf (St.mk r e a lg).rest = true from h), if_pos (show w.isPrefixOf ((St.mk r e a lg).log l).rest = true from h)]
    exact SameBut.here (st := ⟨r.drop w.length, e ++ w, a, lg⟩)
  · rw [if_neg (show ¬ w.isPrefixOf (St.mk r e a lg).rest = true from h), if_neg (show ¬ w.isPrefixOf ((St.mk r e a lg).log l).rest = true from h)]
    exact SameBut.refuse

theorem blind_dateErr (k : PKind) (e : PyErr) : Blind (dateErr k e : P α) := by
  cases e
  · exact .fail _
  · exact .raise _

theorem blind_parseDigits : Blind parseDigits := by
  rw [parseDigits_tail]
  refine .bind (.skip _) fun _ => .bind .extract fun raw => ?_
  unfold digitsTail
  repeat' with_reducible first
    | exact Blind.pure _ | exact Blind.mark | exact Blind.extract | exact Blind.skip _ | exact Blind.fail _ | exact Blind.raise _ | exact blind_dateErr _ _
    | refine Blind.bind ?_ fun _ => ?_ | refine Blind.ite ?_ ?_ | split | (dsimp only; split)

theorem blind_parseSep : Blind parseSep := by
  unfold parseSep
  blind

theorem blind_addWs (c : Cont) (raw : Str) : Blind (addWs c raw) := by
  unfold addWs
  blind

theorem blind_arrayElem (n : Nat) (hv : Blind (parseValue n)) (ha : ∀ p es, Blind (arrayLoop n p es)) (es : List Item) : Blind (arrayElem n es) := by
  intro st l
  have hv := hv st l
  unfold arrayElem
  generalize parseValue n st = y at hv ⊢
  generalize parseValue n (st.log l) = y' at hv ⊢
  cases hv with
  | ok v s d h =>
    have hb : Blind (note (!v.trivia.commentWs.isEmpty) .dateWs >>= fun _ => arrayLoop n true (es ++ [v])) := .bind (.note _ _) fun _ => ha _ _
    exact (SameBut.ok (l := l) v s d h).then (f := fun v => note (!v.trivia.commentWs.isEmpty) .dateWs >>= fun _ => arrayLoop n true (es ++ [v])) fun v => .bind (.note _ _) fun _ => ha _ _
  | err e s d h =>
    dsimp only
    by_cases hu : e.isUnexpectedChar = true
    · rw [if_pos hu, if_pos hu]
      by_cases hc : s.cur = 93
      · rw [if_pos hc, if_pos (show (s.log (l ++ d)).cur = 93 from hc)]
        exact (SameBut.ok (l := l) () s d h).then (f := fun _ => note (s.rest.length != st.rest.length) .swallowed >>= fun _ => step >>= fun _ => pure es)
          fun _ => .bind (.note _ _) fun _ => .bind .step fun _ => .pure _
      · rw [if_neg hc, if_neg (show ¬ (s.log (l ++ d)).cur = 93 from hc)]
        exact .err _ _ _ h
    · rw [if_neg hu, if_neg hu]
      exact .err _ _ _ h

theorem arrayLoop_elem (n : Nat) (prev : Bool) (es : List Item) : arrayLoop (n + 1) prev es = (getSt >>= fun st => skip isWs >>= fun _ => arrayTail n prev es (st.rest.takeWhile isWs)) := by
  funext st
  exact arrayLoop_tail n prev es st

theorem blind_values : ∀ n, Blind (parseValue n) ∧ (∀ p es, Blind (arrayLoop n p es)) ∧ (∀ tc c, Blind (inlineParse n tc c)) ∧ ∀ b, Blind (parseKeyValue n b)
  | 0 => ⟨.raise _, fun _ _ => .raise _, fun _ _ => .raise _, fun _ => .raise _⟩
  | n + 1 => by
    obtain ⟨h1, h2, h3, h4⟩ := blind_values n
    have h5 := blind_parseKeyHere
    have h6 := blind_parseSep
    have h7 := blind_parseDigits
    refine ⟨?_, fun p es => ?_, fun tc c => ?_, fun b => ?_⟩
    · unfold parseValue
      repeat' first | (with_reducible first | exact h2 _ _ | exact h3 _ _ | exact Blind.restoring (blind_parseString _) | exact blind_parseBool _ _) | blind
    · rw [arrayLoop_elem]
      have h8 := blind_arrayElem n h1 h2
      refine Blind.getSt' (fun _ => ?_) fun _ _ => rfl
      refine .bind (.skip _) fun _ => ?_
      unfold arrayTail
      repeat' first | (with_reducible first | exact h2 _ _ | exact h8 _ | exact blind_parseCommentTrail _) | blind
    · unfold inlineParse
      repeat' first | (with_reducible first | exact h3 _ _ | exact h4 _ | exact blind_addWs _ _) | blind
    · unfold parseKeyValue
      repeat' first | (with_reducible first | exact blind_parseCommentTrail _) | blind

/-- `parseItem` behind the white space -/
def itemTail (st0 : St) : P (Option (Option Key × Item)) := do
  let st ← getSt
  if st.cur = 10 then
    step
    let s ← extract
    return some (none, .ws s false)
  else if st.atEnd && !st.ext.isEmpty then
    return some (none, .ws st.ext false)
  else if st.cur = 35 then
    let indent ← extract
    let (cws, comment, trail) ← parseCommentTrail true
    return some (none, .comment ⟨indent, cws, comment, trail⟩)
  else if st.cur = 91 then return none
  else
    let (k, v) ← (fun (_ : St) => parseKeyValue (valueFuel st0.rest) true st0)
    return some (some k, v)

theorem itemTail_eq (r e : Str) (a : List Key) (l : List Loss) :
    parseItem ⟨r, e, a, l⟩ = itemTail ⟨r, [], a, l⟩ ⟨r.dropWhile isSpTabCr, r.takeWhile isSpTabCr, a, l⟩ := rfl

theorem blind_parseItem : Blind parseItem := by
  rintro ⟨r, e, a, lg⟩ l
  show SameBut lg l (parseItem ⟨r, e, a, lg⟩) (parseItem ⟨r, e, a, l⟩)
  rw [itemTail_eq, itemTail_eq]
  unfold itemTail
  rw [getSt_bind, getSt_bind]
  generalize hst : (St.mk (r.dropWhile isSpTabCr) (r.takeWhile isSpTabCr) a lg) = st
  have hst' : (St.mk (r.dropWhile isSpTabCr) (r.takeWhile isSpTabCr) a l) = st.log l := by rw [← hst]; rfl
  have hlg : lg = st.loss := by rw [← hst]
  rw [hst', hlg]
  by_cases c1 : st.cur = 10
  · rw [if_pos c1, if_pos (show (st.log l).cur = 10 from c1)]
    exact Blind.bind .step (fun _ => .bind .extract fun _ => .pure _) st l
  rw [if_neg c1, if_neg (show ¬ (st.log l).cur = 10 from c1)]
  by_cases c2 : (st.atEnd && !st.ext.isEmpty) = true
  · rw [if_pos c2, if_pos (show ((st.log l).atEnd && !(st.log l).ext.isEmpty) = true from c2)]
    exact Blind.pure (some (none, Item.ws st.ext false)) st l
  rw [if_neg c2, if_neg (show ¬ ((st.log l).atEnd && !(st.log l).ext.isEmpty) = true from c2)]
  by_cases c3 : st.cur = 35
  · rw [if_pos c3, if_pos (show (st.log l).cur = 35 from c3)]
    exact Blind.bind .extract (fun _ => .bind (blind_parseCommentTrail _) fun _ => .pure _) st l
  rw [if_neg c3, if_neg (show ¬ (st.log l).cur = 35 from c3)]
  by_cases c4 : st.cur = 91
  · rw [if_pos c4, if_pos (show (st.log l).cur = 91 from c4)]
    exact Blind.pure none st l
  rw [if_neg c4, if_neg (show ¬ (st.log l).cur = 91 from c4)]
  rw [← hlg]
  have := ((blind_values (valueFuel r)).2.2.2 true ⟨r, [], a, lg⟩ l).then (f := fun x => pure (some (some x.1, x.2))) fun _ => .pure _
  exact this

theorem blind_headerKey : Blind headerKey := by
  intro st l
  have := blind_parseKeyHere st l
  unfold headerKey
  generalize parseKeyHere st = y at this ⊢
  generalize parseKeyHere (st.log l) = y' at this ⊢
  cases this with
  | ok x s d h => exact .ok _ _ _ h
  | err e s d h =>
    rcases e with ⟨k, i⟩ | _ | _ | _ | _ | _ | _ | _ | _ | _ | _ <;> first | exact .err _ _ _ h | (cases k <;> exact .err _ _ _ h)

theorem blind_peekTable : Blind peekTable := by
  have := blind_headerKey
  unfold peekTable
  refine .peeking ?_
  blind

theorem blind_parseHeader : Blind parseHeader := by
  have := blind_headerKey
  have := blind_parseCommentTrail true
  unfold parseHeader
  blind

theorem blind_tables : ∀ n, (∀ parent, Blind (parseTable n parent)) ∧ (∀ k tb, Blind (tableLoop n k tb)) ∧ (∀ k tb, Blind (childLoop n k tb)) ∧
    (∀ t k, Blind (parseAot n t k)) ∧ ∀ k ts, Blind (aotLoop n k ts)
  | 0 => ⟨fun _ => .raise _, fun _ _ => .raise _, fun _ _ => .raise _, fun _ _ => .raise _, fun _ _ => .raise _⟩
  | n + 1 => by
    obtain ⟨h1, h2, h3, h4, h5⟩ := blind_tables n
    have h6 := blind_parseItem
    have h7 := blind_parseHeader
    have h8 := blind_peekTable
    refine ⟨fun parent => ?_, fun k tb => ?_, fun k tb => ?_, fun t k => ?_, fun k ts => ?_⟩
    · unfold parseTable
      repeat' first | (with_reducible first | exact h2 _ _ | exact h4 _ _) | blind
    · unfold tableLoop
      repeat' first | (with_reducible first | exact h2 _ _ | exact h3 _ _) | blind
    · unfold childLoop
      repeat' first | (with_reducible first | exact h1 _ | exact h3 _ _) | blind
    · unfold parseAot
      refine .bind (fun st l => SameBut.here (st := { st with aot := st.aot ++ [k] })) fun _ => .bind (h5 _ _) fun _ =>
        .bind (fun st l => SameBut.here (st := { st with aot := st.aot.dropLast })) fun _ => .pure _
    · unfold aotLoop
      repeat' first | (with_reducible first | exact h1 _ | exact h5 _ _) | blind

end Tomlkit
