import Verif.Proofs.Lockstep
/-!
# A line whose value is replaced is read again
-/
namespace Tomlkit
open _root_.Spec Tomlkit.Spec

/-! ### what follows a value -/

theorem dropWhile_nil_of {p : Chr → Bool} {s : Str} (h : ∀ c ∈ s, p c = true) : s.dropWhile p = [] := by
  induction s with
  | nil => rfl
  | cons c s ih => rw [List.dropWhile_cons_of_pos (h c (by simp))]; exact ih fun x hx => h x (by simp [hx])

/-- white space, a comment or nothing, the end of the line -/
structure Tl (W cm nl R : Str) : Prop where
  ws : ∀ c ∈ W, isSpTabCr c = true
  rest : (cm = [] ∧ ((nl = [] ∧ R = []) ∨ nl = [10])) ∨
    (∃ s, cm = 35 :: s ∧ (∀ x ∈ s, isCommentChar x = true) ∧ ((nl = [] ∧ R = []) ∨ nl = [10] ∨ (nl = [13] ∧ R.head? ≠ some 10) ∨ nl = [13, 10]))

/-- what is recorded -/
def tlCws (W cm : Str) : Str := if cm = [] then [] else W
def tlTrail (W cm nl : Str) : Str := if cm = [] then W ++ nl else nl

theorem Tl.move {W cm nl R R1 W1 : Str} (h : Tl W cm nl R) (hW : ∀ c ∈ W1, isSpTabCr c = true) (hh : R1.head? = R.head?) : Tl W1 cm nl R1 := by
  refine ⟨hW, ?_⟩
  have hnil : R = [] → R1 = [] := by
    rintro rfl
    rcases R1 with _ | _
    · rfl
    · cases hh
  rcases h.rest with ⟨h1, h2⟩ | ⟨s, h1, h2, h3⟩
  · exact .inl ⟨h1, h2.imp_left fun h => ⟨h.1, hnil h.2⟩⟩
  · refine .inr ⟨s, h1, h2, ?_⟩
    rcases h3 with h | h | h | h
    · exact .inl ⟨h.1, hnil h.2⟩
    · exact .inr (.inl h)
    · exact .inr (.inr (.inl ⟨h.1, by rw [hh]; exact h.2⟩))
    · exact .inr (.inr (.inr h))

theorem tl_trail_run {nl R : Str} (h : (nl = [] ∧ R = []) ∨ nl = [10] ∨ (nl = [13] ∧ R.head? ≠ some 10) ∨ nl = [13, 10]) (e : Str) (a : List Key)
    (l : List Loss) : parseTrail ⟨nl ++ R, e, a, l⟩ = .ok (e ++ nl) ⟨R, e ++ nl, a, l⟩ := by
  have hskip : nl ++ R = [] ∨ (∃ c r, nl ++ R = c :: r ∧ isSpaces c = false) := by
    rcases h with ⟨rfl, rfl⟩ | rfl | ⟨rfl, h⟩ | rfl
    · exact .inl rfl
    · exact .inr ⟨_, _, rfl, rfl⟩
    · exact .inr ⟨_, _, rfl, rfl⟩
    · exact .inr ⟨_, _, rfl, rfl⟩
  have hsk : skip isSpaces ⟨nl ++ R, e, a, l⟩ = .ok () ⟨nl ++ R, e, a, l⟩ := by
    rw [skip_st]
    rcases hskip with h | ⟨c, r, h, hc⟩
    · rw [h]; simp
    · rw [h, List.takeWhile_cons_of_neg (by rw [hc]; decide), List.dropWhile_cons_of_neg (by rw [hc]; decide), List.append_nil]
  unfold parseTrail
  refine (bind_eq hsk).trans ?_
  rcases h with ⟨rfl, rfl⟩ | rfl | ⟨rfl, h⟩ | rfl
  · simp only [List.append_nil]; rfl
  · rfl
  · rcases R with _ | ⟨c, R⟩
    · rfl
    · have : c ≠ 10 := fun h0 => h (by rw [h0]; rfl)
      refine (bind_eq rfl).trans ?_
      refine (congrFun (if_pos rfl) _).trans ?_
      refine (bind_eq rfl).trans ?_
      refine (bind_eq rfl).trans ?_
      refine (congrFun (if_neg this) _).trans ?_
      rfl
  · refine (bind_eq rfl).trans ?_
    refine (congrFun (if_pos rfl) _).trans ?_
    refine (bind_eq rfl).trans ?_
    show Res.ok (e ++ [13] ++ [10]) (St.mk R (e ++ [13] ++ [10]) a l) = _
    rw [List.append_assoc]; rfl

theorem tl_trail_is {D e : Str} {a : List Key} {l : List Loss} {tr : Str} {s : St} (hD : D = [] ∨ ∃ c r, D = c :: r ∧ isNl c = true)
    (h : parseTrail ⟨D, e, a, l⟩ = .ok tr s) :
    ∃ nl, D = nl ++ s.rest ∧ tr = e ++ nl ∧ ((nl = [] ∧ s.rest = []) ∨ nl = [10] ∨ (nl = [13] ∧ s.rest.head? ≠ some 10) ∨ nl = [13, 10]) := by
  have key : ∀ nl R, D = nl ++ R → ((nl = [] ∧ R = []) ∨ nl = [10] ∨ (nl = [13] ∧ R.head? ≠ some 10) ∨ nl = [13, 10]) →
      ∃ nl, D = nl ++ s.rest ∧ tr = e ++ nl ∧ ((nl = [] ∧ s.rest = []) ∨ nl = [10] ∨ (nl = [13] ∧ s.rest.head? ≠ some 10) ∨ nl = [13, 10]) := by
    intro nl R hd hn
    rw [hd, tl_trail_run hn] at h
    cases h
    exact ⟨nl, hd, rfl, hn⟩
  rcases hD with rfl | ⟨c, r, rfl, hc⟩
  · exact key [] [] rfl (.inl ⟨rfl, rfl⟩)
  · simp only [isNl, Bool.or_eq_true, beq_iff_eq] at hc
    rcases hc with rfl | rfl
    · exact key [10] r rfl (.inr (.inl rfl))
    · rcases r with _ | ⟨d, r⟩
      · exact key [13] [] rfl (.inr (.inr (.inl ⟨rfl, by simp⟩)))
      · by_cases hd : d = 10
        · subst hd
          exact key [13, 10] r rfl (.inr (.inr (.inr rfl)))
        · exact key [13] (d :: r) rfl (.inr (.inr (.inl ⟨rfl, by simpa using hd⟩)))

/-- what follows a value, read -/
theorem Tl.run {W cm nl R : Str} (h : Tl W cm nl R) (e : Str) (a : List Key) (l : List Loss) :
    ∃ e', parseCommentTrail true ⟨W ++ (cm ++ (nl ++ R)), e, a, l⟩ = .ok (tlCws W cm, cm, tlTrail W cm nl) ⟨R, e', a, l⟩ := by
  obtain ⟨hW, hr⟩ := h
  unfold parseCommentTrail
  rw [getSt_bind]
  by_cases hend : (St.mk (W ++ (cm ++ (nl ++ R))) e a l).atEnd = true
  · have : W ++ (cm ++ (nl ++ R)) = [] := by simpa [St.atEnd] using hend
    simp only [List.append_eq_nil_iff] at this
    obtain ⟨rfl, rfl, rfl, rfl⟩ := this
    exact ⟨e, rfl⟩
  rw [if_neg hend]
  rcases hr with ⟨rfl, hr⟩ | ⟨s, rfl, hs, hr⟩
  · have hsk : skip isSpTabCr ⟨W ++ ([] ++ (nl ++ R)), [], a, l⟩ = .ok () ⟨nl ++ R, W, a, l⟩ := by
      rw [skip_st, List.nil_append]
      rcases hr with ⟨rfl, rfl⟩ | rfl
      · rw [List.append_nil, List.append_nil, takeWhile_all' hW, dropWhile_nil_of hW]; rfl
      · have h10 : isSpTabCr 10 = false := rfl
        show Res.ok () (St.mk ((W ++ 10 :: R).dropWhile isSpTabCr) ([] ++ (W ++ 10 :: R).takeWhile isSpTabCr) a l) = _
        rw [takeWhile_append_stop hW h10, dropWhile_append_stop hW h10]; rfl
    have ht := tl_trail_run (nl := nl) (R := R) (hr.imp_right .inl) W a l
    refine ⟨W ++ nl, ?_⟩
    refine (bind_eq rfl).trans ((bind_eq hsk).trans ((bind_eq rfl).trans ?_))
    rw [if_pos (by rcases hr with ⟨rfl, rfl⟩ | rfl <;> rfl), if_pos rfl]
    exact (bind_eq ht).trans rfl
  · have h35 : isSpTabCr 35 = false := rfl
    have hsk : skip isSpTabCr ⟨W ++ (35 :: s ++ (nl ++ R)), [], a, l⟩ = .ok () ⟨35 :: (s ++ (nl ++ R)), W, a, l⟩ := by
      rw [skip_st]
      show Res.ok () (St.mk ((W ++ 35 :: (s ++ (nl ++ R))).dropWhile isSpTabCr) ([] ++ (W ++ 35 :: (s ++ (nl ++ R))).takeWhile isSpTabCr) a l) = _
      rw [takeWhile_append_stop hW h35, dropWhile_append_stop hW h35]; rfl
    have hstop : nl ++ R = [] ∨ ∃ c r, nl ++ R = c :: r ∧ isNl c = true := by
      rcases hr with ⟨rfl, rfl⟩ | rfl | ⟨rfl, _⟩ | rfl
      · exact .inl rfl
      · exact .inr ⟨_, _, rfl, rfl⟩
      · exact .inr ⟨_, _, rfl, rfl⟩
      · exact .inr ⟨_, _, rfl, rfl⟩
    have hsk2 : skip isCommentChar ⟨s ++ (nl ++ R), [] ++ [35], a, l⟩ = .ok () ⟨nl ++ R, 35 :: s, a, l⟩ := by
      rw [skip_st]
      rcases hstop with h | ⟨c, r, h, hc⟩
      · rw [h, List.append_nil, takeWhile_all' hs, dropWhile_nil_of hs]; rfl
      · have hcc : isCommentChar c = false := by unfold isCommentChar; rw [hc]; rfl
        rw [h, takeWhile_append_stop hs hcc, dropWhile_append_stop hs hcc]; rfl
    have ht := tl_trail_run hr [] a l
    refine ⟨[] ++ nl, ?_⟩
    refine (bind_eq rfl).trans ((bind_eq hsk).trans ((bind_eq rfl).trans ?_))
    rw [if_neg (by simp [St.atEnd, St.cur]), if_pos (by rfl)]
    refine (bind_eq rfl).trans ((bind_eq rfl).trans ((bind_eq rfl).trans ((bind_eq hsk2).trans ((bind_eq rfl).trans ?_))))
    rw [if_neg (by
      rcases hstop with h | ⟨c, r, h, hc⟩
      · rw [h]; simp [St.atEnd]
      · rw [h]; simp [St.atEnd, St.cur, hc])]
    refine (bind_eq rfl).trans ((bind_eq rfl).trans ?_)
    rw [if_pos rfl]
    exact (bind_eq ht).trans rfl

/-- what follows a value has this form -/
theorem tl_is {r e : Str} {a : List Key} {l : List Loss} {cws cm tr : Str} {s : St} (h : parseCommentTrail true ⟨r, e, a, l⟩ = .ok (cws, cm, tr) s) :
    ∃ W nl, Tl W cm nl s.rest ∧ r = W ++ (cm ++ (nl ++ s.rest)) ∧ cws = tlCws W cm ∧ tr = tlTrail W cm nl := by
  unfold parseCommentTrail at h
  rw [getSt_bind] at h
  by_cases h1 : (St.mk r e a l).atEnd = true
  · rw [if_pos h1] at h
    have : r = [] := by simpa [St.atEnd] using h1
    subst this
    cases h
    exact ⟨[], [], ⟨(fun c hc => by cases hc), .inl ⟨rfl, .inl ⟨rfl, rfl⟩⟩⟩, rfl, rfl, rfl⟩
  rw [if_neg h1] at h
  obtain ⟨_, s1, q1, h⟩ := bind_ok h
  cases q1
  obtain ⟨_, s1, q1, h⟩ := bind_ok h
  rw [skip_st] at q1
  cases q1
  have hsplit : r = r.takeWhile isSpTabCr ++ r.dropWhile isSpTabCr := List.takeWhile_append_dropWhile.symm
  have hW : ∀ c ∈ r.takeWhile isSpTabCr, isSpTabCr c = true := fun c hc => takeWhile_mem c hc
  generalize r.takeWhile isSpTabCr = W at *
  generalize r.dropWhile isSpTabCr = R' at *
  subst hsplit
  rw [getSt_bind] at h
  by_cases h2 : ((St.mk R' ([] ++ W) a l).atEnd || (St.mk R' ([] ++ W) a l).cur = 10) = true
  · rw [if_pos h2, if_pos rfl] at h
    obtain ⟨t, s2, q2, h⟩ := bind_ok h
    cases h
    have hD : R' = [] ∨ ∃ r, R' = 10 :: r := by
      rcases R' with _ | ⟨c, R⟩
      · exact .inl rfl
      · simp [St.atEnd, St.cur] at h2
        exact .inr ⟨R, by rw [of_decide_eq_true h2]⟩
    obtain ⟨nl, g1, g2, g3⟩ := tl_trail_is (hD.imp_right fun ⟨r, h⟩ => ⟨10, r, h, rfl⟩) q2
    refine ⟨W, nl, ⟨hW, .inl ⟨rfl, ?_⟩⟩, by rw [g1]; rfl, rfl, by rw [g2]; rfl⟩
    rcases g3 with g3 | g3 | ⟨g3, _⟩ | g3
    · exact .inl g3
    · exact .inr g3
    · rw [g3] at g1; rcases hD with hD | ⟨r, hD⟩ <;> rw [hD] at g1 <;> cases g1
    · rw [g3] at g1; rcases hD with hD | ⟨r, hD⟩ <;> rw [hD] at g1 <;> cases g1
  rw [if_neg h2] at h
  rcases R' with _ | ⟨c, R⟩
  · exact absurd rfl h2
  by_cases h35 : c = 35
  · subst h35
    rw [if_pos (show St.cur _ = 35 from rfl)] at h
    obtain ⟨_, s1, q1, h⟩ := bind_ok h
    cases q1
    obtain ⟨_, s1, q1, h⟩ := bind_ok h
    cases q1
    obtain ⟨_, s1, q1, h⟩ := bind_ok h
    cases q1
    obtain ⟨_, s1, q1, h⟩ := bind_ok h
    rw [skip_st] at q1
    cases q1
    have hcm : ∀ x ∈ R.takeWhile isCommentChar, isCommentChar x = true := fun x hx => takeWhile_mem x hx
    have hsp : R = R.takeWhile isCommentChar ++ R.dropWhile isCommentChar := List.takeWhile_append_dropWhile.symm
    generalize R.takeWhile isCommentChar = C at *
    generalize R.dropWhile isCommentChar = D at *
    subst hsp
    rw [getSt_bind] at h
    by_cases hc : (!(St.mk D ([] ++ [35] ++ C) a l).atEnd && !isNl (St.mk D ([] ++ [35] ++ C) a l).cur) = true
    · rw [if_pos hc] at h; cases h
    rw [if_neg hc] at h
    obtain ⟨_, s1, q1, h⟩ := bind_ok h
    cases q1
    obtain ⟨_, s1, q1, h⟩ := bind_ok h
    cases q1
    rw [if_pos rfl] at h
    obtain ⟨t, s2, q2, h⟩ := bind_ok h
    cases h
    have hD : D = [] ∨ ∃ c r, D = c :: r ∧ isNl c = true := by
      rcases D with _ | ⟨d, D⟩
      · exact .inl rfl
      · refine .inr ⟨d, D, rfl, ?_⟩
        simpa [St.atEnd, St.cur] using hc
    obtain ⟨nl, g1, g2, g3⟩ := tl_trail_is hD q2
    refine ⟨W, nl, ⟨hW, .inr ⟨C, rfl, hcm, g3⟩⟩, by rw [g1]; rfl, rfl, by rw [g2]; rfl⟩
  · rw [if_neg (by simpa [St.cur] using h35)] at h
    cases h

/-! ### the separator -/

theorem sep_move {r e : Str} {a : List Key} {l : List Loss} {sep : Str} {s : St} (h : parseSep ⟨r, e, a, l⟩ = .ok sep s) :
    r = sep ++ s.rest ∧ sep ≠ [] ∧ ∀ X : Str, (∀ c r', X = c :: r' → isKvSep c = false) → ∀ e' l', ∃ e'', parseSep ⟨sep ++ X, e', a, l'⟩ = .ok sep ⟨X, e'', a, l'⟩ := by
  unfold parseSep at h
  obtain ⟨_, s1, q1, h⟩ := bind_ok h
  cases q1
  rw [getSt_bind] at h
  dsimp only at h
  have hm : ∀ c ∈ r.takeWhile isKvSep, isKvSep c = true := fun c hc => takeWhile_mem c hc
  have hsp : r = r.takeWhile isKvSep ++ r.dropWhile isKvSep := List.takeWhile_append_dropWhile.symm
  have hd : r.dropWhile isKvSep = r.drop (r.takeWhile isKvSep).length := dropWhile_drop _ _
  have ht : r.take (r.takeWhile isKvSep).length = r.takeWhile isKvSep :=
    (congrArg (List.take _) hsp).trans List.take_left
  by_cases h1 : (!(r.takeWhile isKvSep).contains 61) = true
  · rw [if_pos h1] at h
    obtain ⟨_, _, _, h⟩ := bind_ok h
    cases h
  rw [if_neg h1] at h
  by_cases h2 : ((r.takeWhile isKvSep).drop (((r.takeWhile isKvSep).takeWhile (· != 61)).length + 1)).contains 61 = true
  · rw [if_pos h2] at h
    obtain ⟨_, _, _, h⟩ := bind_ok h
    cases h
  rw [if_neg h2] at h
  obtain ⟨_, s1, q1, h⟩ := bind_ok h
  cases q1
  cases h
  simp only [← hd, ht, List.nil_append]
  generalize r.takeWhile isKvSep = W at *
  generalize r.dropWhile isKvSep = D at *
  refine ⟨hsp, ?_, fun X hX e' l' => ?_⟩
  · rintro rfl; exact h1 rfl
  have h3 : (W ++ X).takeWhile isKvSep = W := by
    rcases X with _ | ⟨c, X⟩
    · rw [List.append_nil]; exact takeWhile_all' hm
    · exact takeWhile_append_stop hm (hX c X rfl) X
  refine ⟨[] ++ W, ?_⟩
  unfold parseSep
  refine (bind_eq rfl).trans ?_
  rw [getSt_bind]
  dsimp only
  rw [h3, if_neg h1, if_neg h2]
  refine (bind_eq rfl).trans ?_
  show Res.ok ([] ++ (W ++ X).take W.length) (St.mk ((W ++ X).drop W.length) ([] ++ (W ++ X).take W.length) a l') = _
  rw [List.take_left, List.drop_left]
  rfl

/-! ### the line -/

/-- blanks only, or a tab first: what comes before a comment does not hide a tab from a date -/
def EvenWs (b : Str) : Prop := Spaces b ∧ (Blank b ∨ ∃ r, b = 9 :: r)

/-- `w` may take the place of `v` on its line -/
def LineUpd (v w : Item) : Prop :=
  w = v ∨ (w.trivia = v.trivia ∧ w.isSimple = true ∧ Rereads True w ∧ EvenWs v.trivia.commentWs)

/-- `i` is what is read for `w` -/
structure LineBack (w i : Item) : Prop where
  wsimple : w.isSimple = true
  simple : i.isSimple = true
  text : i.asString = w.asString
  indent : i.trivia.indent = w.trivia.indent
  comment : i.trivia.comment = w.trivia.comment
  tail : i.trivia.commentWs ++ i.trivia.comment ++ i.trivia.trail = w.trivia.commentWs ++ w.trivia.comment ++ w.trivia.trail
  data : ∃ n0, ∀ n ≥ n0, i.unwrap n = w.unwrap n

theorem LineBack.refl {v : Item} (h : v.isSimple = true) : LineBack v v := ⟨h, h, rfl, rfl, rfl, rfl, 0, fun _ _ => rfl⟩

theorem spTabCr_of_spaces {b : Str} (h : Spaces b) : ∀ c ∈ b, isSpTabCr c = true := spaces_spTabCr h

/-- blanks, then nothing or something else -/
theorem blanks_split (b : Str) : ∃ b1 b2, b = b1 ++ b2 ∧ Blank b1 ∧ (b2 = [] ∨ ∃ c r, b2 = c :: r ∧ c ≠ 32) := by
  induction b with
  | nil => exact ⟨[], [], rfl, Blank.nil, .inl rfl⟩
  | cons c b ih =>
    by_cases hc : c = 32
    · obtain ⟨b1, b2, rfl, h1, h3⟩ := ih
      refine ⟨c :: b1, b2, rfl, fun x hx => ?_, h3⟩
      rcases List.mem_cons.1 hx with h | h
      · rw [h]; exact hc
      · exact h1 x h
    · exact ⟨[], c :: b, rfl, Blank.nil, .inr ⟨c, b, rfl, hc⟩⟩

theorem kv_edit {n : Nat} {R e : Str} {a : List Key} {k : Key} {v : Item} {s : St} (h : parseKeyValue n true ⟨R, e, a, []⟩ = .ok (k, v) s)
    (hl : s.loss = []) {w : Item} (hu : w.trivia = v.trivia) (hws : w.isSimple = true) (hw : Rereads True w) (he : EvenWs v.trivia.commentWs) {R1 : Str} (hh : R1.head? = s.rest.head?) :
    ∃ R' i, LineBack w i ∧ R'.head? = R.head? ∧ (R'.dropWhile isSpTabCr).head? = (R.dropWhile isSpTabCr).head? ∧ R'.dropWhile isSpTabCr ≠ [] ∧
      ∀ e', ∃ e1, parseKeyValue (valueFuel R') true ⟨R', e', a, []⟩ = .ok (k, i) ⟨R1, e1, a, []⟩ := by
  have hkvs := kv_spaces h
  rcases n with _ | n
  · cases h
  unfold parseKeyValue at h
  obtain ⟨_, s1, q1, h⟩ := bind_ok h
  cases q1
  obtain ⟨_, s1, q1, h⟩ := bind_ok h
  rw [skip_st] at q1
  cases q1
  obtain ⟨ind, s1, q1, h⟩ := bind_ok h
  cases q1
  have hind : Spaces (R.takeWhile isSpaces) := fun c hc => takeWhile_mem c hc
  have hd : ∀ c r', R.dropWhile isSpaces = c :: r' → isSpaces c = false := fun c r' hx => dropWhile_stops hx
  have hsplit : R = R.takeWhile isSpaces ++ R.dropWhile isSpaces := List.takeWhile_append_dropWhile.symm
  rw [hkvs.1]
  have hd13 : ∀ c r', R.dropWhile isSpaces = c :: r' → isSpTabCr c = false := fun c r' hx => by
    rw [← hkvs.1] at hx; exact dropWhile_stops hx
  clear hkvs
  generalize R.takeWhile isSpaces = W at *
  generalize R.dropWhile isSpaces = D at *
  subst hsplit
  obtain ⟨key, s2, q2, h⟩ := bind_ok h
  obtain ⟨sep, s3, q3, h⟩ := bind_ok h
  obtain ⟨val, s4, q4, h⟩ := bind_ok h
  dsimp only at h
  rw [if_pos rfl] at h
  obtain ⟨⟨cws, cm, tr⟩, s5, q5, h⟩ := bind_ok h
  dsimp only at h
  obtain ⟨_, s6, q6, h⟩ := bind_ok h
  cases h
  have hs5 := note_quiet q6 hl
  subst hs5
  have m5 := (mono_parseCommentTrail _ _ _ _ q5)
  have l4 := loss_nil m5.2 hl
  have m4 := (mono_parseValue _ _ _ _ q4)
  have l3 := loss_nil m4.2 l4
  have m3 := (mono_parseSep _ _ _ q3)
  have l2 := loss_nil m3.2 l3
  have m2 := (mono_parseKeyHere _ _ _ q2)
  have hv := keeps_fact ((value_keeps n).1 s3) q4 l4
  have hquiet : val.trivia.commentWs = [] ∨ cws = [] := by
    by_cases h1 : val.trivia.commentWs = []
    · exact .inl h1
    by_cases h2 : cws = []
    · exact .inr h2
    exfalso
    unfold note at q6
    have hb : (!val.trivia.commentWs.isEmpty && !cws.isEmpty) = true := by simp [h1, h2]
    rw [hb] at q6
    have := congrArg St.loss (Res.ok.inj q6).2
    rw [hl] at this
    simp at this
  clear q6
  have hnw : val.isWhitespace = false := by
    have := hv.simple
    cases val <;> first | rfl | cases this
  rw [setTrivia_trivia hnw] at he hu
  have a2 : s2.aot = a := by
    have := parseKeyHere_does ⟨D, [] ++ W, a, []⟩
    unfold Does P.wp at this
    rw [show parseKeyHere ⟨D, [] ++ W, a, []⟩ = _ from q2] at this
    exact this.adv.aot
  have a3 : s3.aot = a := by
    have := parseSep_does s2
    unfold Does P.wp at this
    rw [q3] at this
    exact this.adv.aot.trans a2
  rcases s4 with ⟨r4, e4, a4, l4'⟩
  obtain ⟨T, nl, hT, hr4, hcws, htr⟩ := tl_is q5
  -- the white space after the value
  have hcvS : Spaces val.trivia.commentWs := by
    by_cases h1 : val.trivia.commentWs = []
    · rw [h1]; exact Spaces.nil
    · have := he.1
      simp only [show val.trivia.commentWs.isEmpty = false by simpa using h1] at this
      exact this
  have hWt : ∀ c ∈ val.trivia.commentWs ++ T, isSpTabCr c = true := fun c hc => by
    rcases List.mem_append.1 hc with hc | hc
    · exact spaces_spTabCr hcvS c hc
    · exact hT.ws c hc
  have hT1 := hT.move hWt hh
  have hev : cm ≠ [] → EvenWs (val.trivia.commentWs ++ T) := by
    intro hcm
    have hT2 : cws = T := by rw [hcws, tlCws, if_neg hcm]
    by_cases h1 : val.trivia.commentWs = []
    · rw [h1] at he ⊢
      simp only [List.isEmpty_nil, if_true] at he
      rw [List.nil_append, ← hT2]; exact he
    · rcases hquiet with h2 | h2
      · exact absurd h2 h1
      · simp only [show val.trivia.commentWs.isEmpty = false by simpa using h1] at he
        rw [← hT2, h2, List.append_nil]; exact he
  have htail : w.trivia.commentWs ++ w.trivia.comment ++ w.trivia.trail = (val.trivia.commentWs ++ T) ++ (cm ++ nl) := by
    rw [hu]
    simp only
    by_cases hcm : cm = []
    · have h1 : cws = [] := by rw [hcws, tlCws, if_pos hcm]
      have h2 : tr = T ++ nl := by rw [htr, tlTrail, if_pos hcm]
      rw [h1, h2, hcm]
      by_cases h3 : val.trivia.commentWs = []
      · rw [h3]; simp
      · simp [h3]
    · have h1 : cws = T := by rw [hcws, tlCws, if_neg hcm]
      have h2 : tr = nl := by rw [htr, tlTrail, if_neg hcm]
      rw [h2]
      rcases hquiet with h3 | h3
      · rw [h3, h1]; simp
      · rw [h3] at h1 ⊢
        rw [← h1]
        by_cases h3 : val.trivia.commentWs = []
        · rw [h3]; simp
        · simp [h3]
  generalize hY : val.trivia.commentWs ++ T = Y at *
  obtain ⟨b1, b2, rfl, hb1, hb2⟩ := blanks_split Y
  -- the new value
  have hrd : ReadsTo True w.asString (Again w) := by
    have := hw.2.2.2.2 w.trivia (by rw [hu]; exact hind)
    rw [setTrivia_self] at this
    exact this
  have hends : DateEnds (b2 ++ (cm ++ (nl ++ R1))) := by
    rcases hb2 with rfl | ⟨c, r, rfl, hc⟩
    · rw [List.nil_append]
      rcases hT1.rest with ⟨rfl, h | h⟩ | ⟨s, rfl, _⟩
      · rw [h.1, h.2]; exact .inl rfl
      · rw [h]; exact .inr ⟨10, R1, rfl, rfl⟩
      · exact .inr ⟨35, _, rfl, rfl⟩
    · have h1 := hWt c (by simp)
      simp only [isSpTabCr, Bool.or_eq_true, beq_iff_eq] at h1
      rcases h1 with (h1 | h1) | h1
      · exact absurd h1 hc
      · rw [h1]; exact .inr ⟨9, _, rfl, rfl⟩
      · rw [h1]; exact .inr ⟨13, _, rfl, rfl⟩
  obtain ⟨hsr, hsne, hsep⟩ := sep_move (r := s2.rest) (e := s2.ext) (a := s2.aot) (l := s2.loss) q3
  generalize hX : w.asString ++ (b1 ++ (b2 ++ (cm ++ (nl ++ R1)))) = X
  have hXs : ∀ c r', X = c :: r' → isKvSep c = false := by rw [← hX]; exact hrd.noKvSep _
  obtain ⟨u, hu1, hu2⟩ := local_run (p := parseKeyHere) (fun t t' a' l u e a => Rel.parseKeyHere) mono_parseKeyHere q2 l2 a2 (R' := sep ++ X) (by
    rw [hsr]
    rcases sep with _ | ⟨c, sep⟩
    · exact absurd rfl hsne
    · rfl)
  have hDh : (u ++ (sep ++ X)).head? = D.head? := by
    rw [hu1, hsr]
    rcases u with _ | ⟨c, u⟩
    · rcases sep with _ | ⟨c, sep⟩
      · exact absurd rfl hsne
      · rfl
    · rfl
  have hDsp : ∀ c r', u ++ (sep ++ X) = c :: r' → isSpaces c = false := by
    intro c r' hc
    rw [hc] at hDh
    rcases D with _ | ⟨d, D⟩
    · cases hDh
    · cases hDh; exact hd c D rfl
  have hskip : ∀ x, skip isSpaces ⟨W ++ (u ++ (sep ++ X)), x, a, []⟩ = .ok () ⟨u ++ (sep ++ X), x ++ W, a, []⟩ := by
    intro x
    rw [skip_st]
    rcases hq : u ++ (sep ++ X) with _ | ⟨c, q⟩
    · rw [List.append_nil, takeWhile_all' hind, dropWhile_nil_of hind]
    · rw [takeWhile_append_stop hind (hDsp c q hq), dropWhile_append_stop hind (hDsp c q hq)]
  obtain ⟨e3', hsep'⟩ := hsep X hXs s2.ext []
  rw [a2] at hsep'
  -- what is read
  have hfuel : 3 * w.asString.length + 3 ≤ valueFuel (W ++ (u ++ (sep ++ X))) - 1 := by
    have hlen : w.asString.length ≤ X.length := by rw [← hX]; simp
    unfold valueFuel
    simp only [List.length_append]
    omega
  obtain ⟨i0, st0, g1, g2, g3, g3', g4, g5, g6⟩ := hrd (valueFuel (W ++ (u ++ (sep ++ X))) - 1) b1 (b2 ++ (cm ++ (nl ++ R1))) e3' a [] hfuel hb1 hends
  rw [hX] at g1
  have g6 := g6 trivial
  have hik := keeps_fact ((value_keeps _).1 _) g1 g6
  rcases st0 with ⟨r0, e0, a0, l0⟩
  simp only at g4 g5 g6
  subst g4 g6
  have hitext : i0.asString = w.asString := by
    have := hik.text
    unfold Ate at this
    simp only at this
    rcases g5 with ⟨g, g'⟩ | ⟨g, g'⟩
    · rw [g, g', List.append_nil, ← hX] at this
      exact (List.append_cancel_right this).symm
    · rw [g, g', List.append_assoc, ← hX] at this
      exact (List.append_cancel_right this).symm
  have hfin : ∀ cw W', r0 = W' ++ (cm ++ (nl ++ R1)) → i0.trivia.commentWs = cw → b1 ++ b2 = cw ++ W' → (cw = [] ∨ tlCws W' cm = []) →
      ∃ R' i, LineBack w i ∧ R'.head? = (W ++ D).head? ∧ (R'.dropWhile isSpTabCr).head? = D.head? ∧ R'.dropWhile isSpTabCr ≠ [] ∧
      ∀ e', ∃ e1, parseKeyValue (valueFuel R') true ⟨R', e', a0, []⟩ = .ok (key.setSep (key.sep ++ sep), i) ⟨R1, e1, a0, []⟩ := by
    intro cw W' hr0 hcw hbb hq
    have hT2 := hT1.move (W1 := W') (fun c hc => hWt c (by rw [hbb]; simp [hc])) (R1 := R1) rfl
    obtain ⟨e5, hrun⟩ := hT2.run e0 a0 []
    refine ⟨W ++ (u ++ (sep ++ X)), i0.setTrivia ⟨W, if cw.isEmpty = true then tlCws W' cm else cw, cm, tlTrail W' cm nl⟩, ?_, ?_, ?_, ?_, ?_⟩
    · have hnw0 : i0.isWhitespace = false := g3'
      refine ⟨hws, ?_, ?_, ?_, ?_, ?_, ?_⟩
      · have := hik.simple
        cases i0 <;> first | rfl | cases this
      · rw [asString_setTrivia hik.clean hik.simple]; exact hitext
      · rw [setTrivia_trivia hnw0, hu]; simp
      · rw [setTrivia_trivia hnw0, hu]
      · rw [setTrivia_trivia hnw0, htail, hbb]
        simp only
        by_cases hcm : cm = []
        · subst hcm
          by_cases h3 : cw = []
          · simp [h3, tlCws, tlTrail]
          · simp [h3, tlTrail]
        · by_cases h3 : cw = []
          · simp [h3, tlCws, tlTrail, hcm]
          · rcases hq with hq | hq
            · exact absurd hq h3
            · rw [tlCws, if_neg hcm] at hq
              simp [h3, tlTrail, hq, hcm]
      · exact (g2 _).2.2
    · rcases W with _ | ⟨c, W⟩
      · exact hDh
      · rfl
    · rw [List.dropWhile_append_of_pos (spaces_spTabCr hind), ← hDh]
      rcases hq2 : u ++ (sep ++ X) with _ | ⟨c, q⟩
      · rfl
      · rw [List.dropWhile_cons_of_neg (by
          rw [hq2] at hDh
          rcases D with _ | ⟨d, D⟩
          · cases hDh
          · cases hDh
            rw [hd13 c D rfl]; decide)]
    · rw [List.dropWhile_append_of_pos (spaces_spTabCr hind)]
      rcases hq2 : u ++ (sep ++ X) with _ | ⟨c, q⟩
      · simp [hsne] at hq2
      · rw [List.dropWhile_cons_of_neg (by
          rw [hq2] at hDh
          rcases D with _ | ⟨d, D⟩
          · cases hDh
          · cases hDh
            rw [hd13 c D rfl]; decide)]
        simp
    · intro e'
      have hf : valueFuel (W ++ (u ++ (sep ++ X))) = valueFuel (W ++ (u ++ (sep ++ X))) - 1 + 1 := by unfold valueFuel; omega
      rw [hf]
      unfold parseKeyValue
      refine ⟨e5, ?_⟩
      refine (bind_eq rfl).trans ((bind_eq (hskip _)).trans ((bind_eq rfl).trans ?_))
      refine (bind_eq hu2).trans ((bind_eq hsep').trans ?_)
      refine (bind_eq g1).trans ?_
      rw [if_pos rfl]
      rw [hr0]
      refine (bind_eq hrun).trans ?_
      dsimp only
      rw [hcw]
      have hno : (!cw.isEmpty && !(tlCws W' cm).isEmpty) = false := by
        rcases hq with hq | hq
        · rw [hq]; rfl
        · rw [hq]; simp
      rw [hno]
      rfl
  rcases g5 with ⟨g, g'⟩ | ⟨g, g'⟩
  · exact hfin [] (b1 ++ b2) (by rw [g', List.append_assoc]) g rfl (.inl rfl)
  · refine hfin b1 b2 g' g rfl ?_
    by_cases hcm : cm = []
    · exact .inr (by rw [tlCws, if_pos hcm])
    · rcases (hev hcm).2 with h | ⟨r, h⟩
      · right
        rw [tlCws, if_neg hcm]
        rcases hb2 with h2 | ⟨c, r, rfl, hc⟩
        · exact h2
        · exact absurd (h c (by simp)) hc
      · left
        rcases b1 with _ | ⟨c, b1⟩
        · rfl
        · cases h
          have := hb1 9 (by simp)
          cases this


/-- A line can be read with a new value. -/
theorem line_hyp : LineHyp LineUpd LineBack := by
  intro R e a k v s h hl w hu R1 hh
  have hsimple : v.isSimple = true := by
    have := keeps_fact (parseItem_keeps ⟨R, e, a, []⟩) h hl
    obtain ⟨_, _, _, hp⟩ := this.pair k v rfl
    exact hp.simple
  rcases hu with rfl | ⟨h1, h2, h3, h4⟩
  · obtain ⟨u, hu1, hu2⟩ := local_run (p := parseItem) (fun t t' a' l u e a => Rel.parseItem) mono_parseItem h hl (parseItem_aot h) hh
    refine ⟨u ++ R1, w, LineBack.refl hsimple, ?_, fun e' => ⟨s.ext, ?_⟩⟩
    · rw [hu1]
      rcases u with _ | ⟨c, u⟩
      · exact hh
      · rfl
    · rw [parseItem_ext _ e' e]; exact hu2
  · unfold parseItem at h
    obtain ⟨_, s1, q1, h⟩ := bind_ok h
    cases q1
    rw [getSt_bind] at h
    obtain ⟨_, s1, q1, h⟩ := bind_ok h
    rw [skip_st] at q1
    cases q1
    dsimp only at h
    rw [getSt_bind] at h
    by_cases h10 : (St.mk (R.dropWhile isSpTabCr) ([] ++ R.takeWhile isSpTabCr) a []).cur = 10
    · rw [if_pos h10] at h
      obtain ⟨_, _, _, h⟩ := bind_ok h
      cases h
    rw [if_neg h10] at h
    split at h
    · cases h
    rename_i hend
    split at h
    · obtain ⟨_, _, _, h⟩ := bind_ok h
      obtain ⟨⟨_, _, _⟩, _, _, h⟩ := bind_ok h
      cases h
    rename_i h35
    split at h
    · cases h
    rename_i h91
    obtain ⟨p, s2, q, h⟩ := bind_ok h
    cases h
    rcases p with ⟨k, v⟩
    obtain ⟨R', i, g1, g2, g3, g5, g4⟩ := kv_edit q hl h1 h2 h3 h4 hh
    refine ⟨R', i, g1, g2, fun e' => ?_⟩
    obtain ⟨e1, g4⟩ := g4 []
    refine ⟨e1, ?_⟩
    have hcur : ∀ x y, (St.mk (R'.dropWhile isSpTabCr) x y []).cur = (St.mk (R.dropWhile isSpTabCr) ([] ++ R.takeWhile isSpTabCr) a []).cur := by
      intro x y
      unfold St.cur
      revert g3
      generalize R'.dropWhile isSpTabCr = A
      generalize R.dropWhile isSpTabCr = B
      intro g3
      rcases A with _ | _ <;> rcases B with _ | _ <;> first | rfl | (cases g3; done) | (cases g3; rfl)
    unfold parseItem
    refine (bind_eq rfl).trans ?_
    rw [getSt_bind]
    refine (bind_eq (skip_st _ _ _ _ _)).trans ?_
    rw [getSt_bind, hcur, if_neg h10, if_neg (by simp [St.atEnd, g5]), if_neg h35, if_neg h91]
    refine (bind_eq (b := (k, i)) (s := ⟨R1, e1, a, []⟩) g4).trans ?_
    rfl

end Tomlkit
