import Verif.Proofs.Local
/-!
# Reading a line looks neither at the stack of arrays of tables nor at the log
-/
namespace Tomlkit

/-- the result with another stack, and an earlier log -/
def Res.put {α : Type} (a : List Key) (l : List Loss) : Res α → Res α
  | .ok x s => .ok x ⟨s.rest, s.ext, a, l ++ s.loss⟩
  | .err e s => .err e ⟨s.rest, s.ext, a, l ++ s.loss⟩

/-- stack and log are only passed on -/
def Framed {α : Type} (p : P α) : Prop := ∀ r e a l, p ⟨r, e, a, l⟩ = (p ⟨r, e, [], []⟩).put a l

section
variable {α β : Type}

theorem Res.put_put (a a' : List Key) (l l' : List Loss) (r : Res α) : (r.put a' l').put a l = r.put a (l ++ l') := by
  cases r <;> simp [Res.put, List.append_assoc]

theorem Framed.at (p : P α) (h : Framed p) (s : St) : p s = (p ⟨s.rest, s.ext, [], []⟩).put s.aot s.loss := h s.rest s.ext s.aot s.loss

theorem Framed.bind {p : P β} {f : β → P α} (h : Framed p) (hf : ∀ b, Framed (f b)) : Framed (p >>= f) := by
  intro r e a l
  rw [P.bind_def, P.bind_def, h r e a l]
  have h0 := h r e [] []
  rcases hp : p ⟨r, e, [], []⟩ with ⟨b, s⟩ | ⟨er, s⟩ <;> rw [hp] at h0
  · show f b ⟨s.rest, s.ext, a, l ++ s.loss⟩ = (f b s).put a l
    rw [hf b s.rest s.ext a (l ++ s.loss), Framed.at (f b) (hf b) s, Res.put_put]
  · rfl

theorem framed_getSt {f : St → P α} (h1 : ∀ r e a l, f ⟨r, e, a, l⟩ = f ⟨r, e, [], []⟩) (h2 : ∀ st, Framed (f st)) : Framed (getSt >>= f) := by
  intro r e a l
  show f ⟨r, e, a, l⟩ ⟨r, e, a, l⟩ = (f ⟨r, e, [], []⟩ ⟨r, e, [], []⟩).put a l
  rw [h1, h2]

theorem framed_pure (x : α) : Framed (pure x : P α) := fun r e a l => by show Res.ok _ _ = _; simp [pure, Res.put]
theorem framed_mark : Framed mark := fun r e a l => by simp [mark, Res.put]
theorem framed_extract : Framed extract := fun r e a l => by simp [extract, Res.put]
theorem framed_fail (k : PKind) : Framed (fail k : P α) := fun r e a l => by simp [fail, Res.put]
theorem framed_raise (k : Err) : Framed (raise k : P α) := fun r e a l => by simp [raise, Res.put]
theorem framed_skip (q : Chr → Bool) : Framed (skip q) := fun r e a l => by simp [skip, Res.put]
theorem framed_stepN (q : Nat) : Framed (stepN q) := fun r e a l => by simp [stepN, Res.put]
theorem framed_step : Framed step := fun r e a l => by rcases r with _ | ⟨c, r⟩ <;> simp [step, Res.put]
theorem framed_stepE : Framed stepE := fun r e a l => by rcases r with _ | ⟨c, _ | ⟨d, r⟩⟩ <;> simp [stepE, Res.put]
theorem framed_note (b : Bool) (k : Loss) : Framed (note b k) := fun r e a l => by cases b <;> simp [note, Res.put]
theorem framed_lift (x : Except Err α) : Framed (lift x) := fun r e a l => by cases x <;> simp [lift, Res.put]
theorem Framed.ite {c : Prop} [Decidable c] {m m' : P α} (h : Framed m) (h' : Framed m') : Framed (if c then m else m') := by
  split
  · exact h
  · exact h'
theorem Framed.restoring {m : P α} (h : Framed m) : Framed (restoring m) := by
  intro r e a l
  unfold Tomlkit.restoring
  rw [h r e a l]
  rcases m ⟨r, e, [], []⟩ with ⟨b, s⟩ | ⟨er, s⟩ <;> rfl
theorem Framed.peeking {m : P α} (h : Framed m) : Framed (peeking m) := by
  intro r e a l
  unfold Tomlkit.peeking
  rw [h r e a l]
  rcases m ⟨r, e, [], []⟩ with ⟨b, s⟩ | ⟨er, s⟩ <;> simp [Res.put]
end

/-- unfolds binds and conditionals -/
macro "framed" : tactic => `(tactic| repeat' with_reducible first
  | exact framed_pure _ | exact framed_mark | exact framed_extract | exact framed_skip _ | exact framed_stepN _
  | exact framed_fail _ | exact framed_raise _ | exact framed_step | exact framed_stepE | exact framed_lift _ | exact framed_note _ _
  | (refine framed_getSt (by intros; with_unfolding_all rfl) fun _ => ?_) | refine Framed.bind ?_ fun _ => ?_ | refine Framed.ite ?_ ?_ | assumption | (apply_assumption; done) | split | (dsimp only; split))

theorem framed_parseTrail : Framed parseTrail := by
  unfold parseTrail
  framed
theorem framed_parseCommentTrail (b : Bool) : Framed (parseCommentTrail b) := by
  have := framed_parseTrail
  unfold parseCommentTrail
  framed
theorem framed_parseEscapedChar (b : Bool) : Framed (parseEscapedChar b) := by
  unfold parseEscapedChar
  framed
theorem framed_strLoop (d : StrType) (n : Nat) : ∀ v e, Framed (strLoop d n v e) := by
  induction n with
  | zero => intro v e; exact framed_raise _
  | succ n ih =>
    intro v e
    have := framed_parseEscapedChar d.isMultiline
    unfold strLoop
    framed
theorem framed_skipFirstNl (d : StrType) : Framed (skipFirstNl d) := by
  unfold skipFirstNl
  framed
theorem framed_strBody (d : StrType) : Framed (strBody d) := by
  have := framed_skipFirstNl d
  have := framed_strLoop d
  unfold strBody
  framed
theorem framed_parseString (d : StrType) : Framed (parseString d) := by
  have := framed_strBody d
  have := framed_strBody d.toggle
  unfold parseString
  framed
theorem framed_parseKey (n : Nat) : Framed (parseKey n) := by
  have hs := framed_parseString
  induction n with
  | zero => exact framed_raise _
  | succ n ih =>
    unfold parseKey
    framed
theorem framed_parseKeyHere : Framed parseKeyHere := by
  have := framed_parseKey
  unfold parseKeyHere
  framed
theorem framed_parseSep : Framed parseSep := by
  unfold parseSep
  framed
theorem framed_dateErr {α : Type} (k : PKind) (e : PyErr) : Framed (dateErr k e : P α) := by
  cases e
  · exact framed_fail _
  · exact framed_raise _
theorem framed_parseBool (w : Str) (v : Bool) : Framed (parseBool w v) := by
  intro r e a l
  unfold parseBool
  by_cases h : w.isPrefixOf r = true
  · rw [if_pos h, if_pos h]; simp [Res.put]
  · rw [if_neg h, if_neg h]; simp [Res.put]
theorem framed_parseDigits : Framed parseDigits := by
  have := @framed_dateErr Item
  unfold parseDigits
  framed
theorem framed_addWs (c : Cont) (s : Str) : Framed (addWs c s) := by
  unfold addWs
  framed
theorem framed_arrayElem {n : Nat} (h1 : Framed (parseValue n)) (h2 : ∀ b l, Framed (arrayLoop n b l)) (elems : List Item) : Framed (arrayElem n elems) := by
  intro r e a l
  unfold arrayElem
  rw [h1 r e a l]
  rcases parseValue n ⟨r, e, [], []⟩ with ⟨v, s⟩ | ⟨er, s⟩
  · have h := Framed.bind (framed_note (!v.trivia.commentWs.isEmpty) .dateWs) (fun _ => h2 true (elems ++ [v]))
    show (note (!v.trivia.commentWs.isEmpty) .dateWs >>= fun _ => arrayLoop n true (elems ++ [v])) ⟨s.rest, s.ext, a, l ++ s.loss⟩ =
      ((note (!v.trivia.commentWs.isEmpty) .dateWs >>= fun _ => arrayLoop n true (elems ++ [v])) s).put a l
    rw [h, Framed.at _ h s, Res.put_put]
  · dsimp only [Res.put]
    by_cases he : er.isUnexpectedChar = true
    · rw [if_pos he, if_pos he]
      have hc : (St.mk s.rest s.ext a (l ++ s.loss)).cur = s.cur := rfl
      rw [hc]
      by_cases h93 : s.cur = 93
      · rw [if_pos h93, if_pos h93]
        have h := Framed.bind (framed_note (s.rest.length != r.length) .swallowed) (fun _ => Framed.bind framed_step fun _ => framed_pure elems)
        show (note (s.rest.length != r.length) .swallowed >>= fun _ => step >>= fun _ => pure elems) ⟨s.rest, s.ext, a, l ++ s.loss⟩ =
          ((note (s.rest.length != r.length) .swallowed >>= fun _ => step >>= fun _ => pure elems) s).put a l
        rw [h, Framed.at _ h s, Res.put_put]
      · rw [if_neg h93, if_neg h93]; rfl
    · rw [if_neg he, if_neg he]
theorem framed_values : ∀ n, Framed (parseValue n) ∧ (∀ b l, Framed (arrayLoop n b l)) ∧ (∀ tc c, Framed (inlineParse n tc c)) ∧
    ∀ b, Framed (parseKeyValue n b) := by
  intro n
  induction n with
  | zero =>
    refine ⟨?_, fun _ _ => ?_, fun _ _ => ?_, fun _ => ?_⟩
    · rw [parseValue]; exact framed_raise _
    · rw [arrayLoop]; exact framed_raise _
    · rw [inlineParse]; exact framed_raise _
    · rw [parseKeyValue]; exact framed_raise _
  | succ n ih =>
    obtain ⟨ihv, iha, ihi, ihk⟩ := ih
    refine ⟨?_, fun b l => ?_, fun tc c => ?_, fun b => ?_⟩
    · have hs1 := Framed.restoring (framed_parseString .slb)
      have hs2 := Framed.restoring (framed_parseString .sll)
      have hb := framed_parseBool
      have hd := framed_parseDigits
      rw [parseValue]
      framed
    · have ht : ∀ i, Framed (arrayTail n b l i) := by
        intro i
        have := framed_arrayElem ihv iha l
        have := framed_parseCommentTrail false
        unfold arrayTail
        framed
      intro r e a k
      rw [arrayLoop_tail, arrayLoop_tail, ht]
    · have := framed_addWs
      rw [inlineParse]
      framed
    · have := framed_parseKeyHere
      have := framed_parseSep
      have := framed_parseCommentTrail true
      rw [parseKeyValue]
      framed

theorem framed_parseItem : Framed parseItem := by
  intro r e a l
  unfold parseItem
  simp only [mark_bind, getSt_bind, skip_bind]
  have hc : (St.mk (r.dropWhile isSpTabCr) ([] ++ r.takeWhile isSpTabCr) a l).cur = (St.mk (r.dropWhile isSpTabCr) ([] ++ r.takeWhile isSpTabCr) [] []).cur := rfl
  have ha : (St.mk (r.dropWhile isSpTabCr) ([] ++ r.takeWhile isSpTabCr) a l).atEnd = (St.mk (r.dropWhile isSpTabCr) ([] ++ r.takeWhile isSpTabCr) [] []).atEnd := rfl
  rw [hc, ha]
  split
  · have h : Framed (step >>= fun _ => extract >>= fun s => pure (some (none, Item.ws s false)) : P (Option (Option Key × Item))) := by framed
    exact h _ _ _ _
  split
  · exact framed_pure _ _ _ _ _
  split
  · have h : Framed (extract >>= fun indent => parseCommentTrail true >>= fun p => pure (some (none, Item.comment ⟨indent, p.1, p.2.1, p.2.2⟩)) : P (Option (Option Key × Item))) := by
      have := framed_parseCommentTrail true
      framed
    exact h _ _ _ _
  split
  · exact framed_pure _ _ _ _ _
  · have h := (framed_values (valueFuel r)).2.2.2 true r [] a l
    have hb : ∀ (q : Res (Key × Item)) (st : St), ((fun (_ : St) => q) >>= fun x => pure (some (some x.1, x.2)) : P (Option (Option Key × Item))) st =
        (match q with
        | .ok p s => Res.ok (some (some p.1, p.2)) s
        | .err e s => .err e s) := by
      intro q st
      rcases q with _ | _ <;> rfl
    refine (hb _ _).trans (Eq.trans ?_ (congrArg (Res.put a l) (hb _ _)).symm)
    rw [h]
    rcases parseKeyValue (valueFuel r) true ⟨r, [], [], []⟩ with ⟨⟨k, v⟩, s⟩ | ⟨er, s⟩ <;> rfl

theorem framed_headerKey : Framed headerKey := by
  intro r e a l
  unfold headerKey
  rw [framed_parseKeyHere r e a l]
  rcases parseKeyHere ⟨r, e, [], []⟩ with ⟨k, s⟩ | ⟨er, s⟩
  · rfl
  · cases er with
    | parse k n => cases k <;> rfl
    | _ => rfl
theorem framed_peekTable : Framed peekTable := by
  have := framed_headerKey
  unfold peekTable
  refine Framed.peeking ?_
  framed
theorem framed_parseHeader : Framed parseHeader := by
  have := framed_headerKey
  have := framed_parseCommentTrail true
  unfold parseHeader
  framed

end Tomlkit
