import Verif.Proofs.ParsedValue
/-!
# A line that was read is read again
-/
namespace Tomlkit
open _root_.Spec Tomlkit.Spec

/-! ### line ends -/

theorem NoLoneCr.suffix {s t : Str} (h : NoLoneCr s) (ht : t <:+ s) : NoLoneCr t := by
  obtain ⟨p, rfl⟩ := ht
  induction p with
  | nil => exact h
  | cons c r ih => exact ih h.2

/-- white space before the end of a line -/
theorem blank_run {R W R' : Str} (h : NoLoneCr R) (hR : R = W ++ R') (hW : ∀ c ∈ W, isSpTabCr c = true) :
    Spaces W ∨ ∃ sp r, W = sp ++ [13] ∧ Spaces sp ∧ R' = 10 :: r := by
  induction W generalizing R with
  | nil => exact .inl Spaces.nil
  | cons c W ih =>
    subst hR
    have hc := hW c (by simp)
    obtain ⟨h1, h2⟩ := h
    by_cases h13 : c = 13
    · obtain ⟨r', hr⟩ := h1 h13
      right
      rcases W with _ | ⟨d, W⟩
      · exact ⟨[], r', by rw [h13]; rfl, Spaces.nil, hr⟩
      · exfalso
        cases hr
        have := hW 10 (by simp)
        cases this
    · have hs : isSpaces c = true := by
        simp only [isSpTabCr, isSpaces, Bool.or_eq_true, beq_iff_eq] at hc ⊢
        rcases hc with hc | hc
        · exact hc
        · exact absurd hc h13
      rcases ih h2 rfl fun x hx => hW x (by simp [hx]) with h | ⟨sp, r, rfl, h4, h5⟩
      · left
        intro x hx
        rcases List.mem_cons.1 hx with rfl | hx
        · exact hs
        · exact h x hx
      · right
        refine ⟨c :: sp, r, rfl, ?_, h5⟩
        intro x hx
        rcases List.mem_cons.1 hx with rfl | hx
        · exact hs
        · exact h4 x hx

/-- what the end of a line can be -/
structure EndIs (cws cm tr : Str) (cl : Bool) : Prop where
  cws : Spaces cws
  comment : Cmt cm
  trail : ∃ sp nl, tr = sp ++ nl ∧ Spaces sp ∧ NlOf nl cl

theorem stepIf {α : Type} {d : Chr} {f : Unit → P α} {S : St} : ((if S.cur = d then step else pure ()) >>= f) S =
    if S.cur = d then (step >>= f) S else f () S := by
  by_cases h : S.cur = d
  · rw [if_pos h, if_pos h]
  · rw [if_neg h, if_neg h]; rfl

/-- the trail after `e` -/
theorem trail_is {r e : Str} {a : List Key} {l : List Loss} {t : Str} {s : St} (h : parseTrail ⟨r, e, a, l⟩ = .ok t s) (hr : NoLoneCr r)
    (hq : r = [] ∨ ∃ r', r = 10 :: r' ∨ r = 13 :: r') :
    ∃ nl cl, t = e ++ nl ∧ NlOf nl cl ∧ (cl = true ∨ (s.rest = [] ∧ r = [])) ∧ s.loss = l ∧ s.rest <:+ r := by
  rcases hq with rfl | ⟨r', rfl | rfl⟩
  · cases h
    exact ⟨[], false, by simp, .inr ⟨rfl, rfl⟩, .inr ⟨rfl, rfl⟩, rfl, List.suffix_refl _⟩
  · cases h
    exact ⟨[10], true, by simp [List.takeWhile, isSpaces], .inl ⟨rfl, .inl rfl⟩, .inl rfl, rfl, List.suffix_cons _ _⟩
  · obtain ⟨r2, rfl⟩ := hr.1 rfl
    cases h
    exact ⟨[13, 10], true, by simp [List.takeWhile, isSpaces], .inl ⟨rfl, .inr rfl⟩, .inl rfl, rfl, (List.suffix_cons _ _).trans (List.suffix_cons _ _)⟩

/-- the state after white space -/
theorem skip_st (q : Chr → Bool) (r e : Str) (a : List Key) (l : List Loss) :
    skip q ⟨r, e, a, l⟩ = .ok () ⟨r.dropWhile q, e ++ r.takeWhile q, a, l⟩ := rfl

theorem atEnd_of {r e : Str} {a : List Key} {l : List Loss} : (St.mk r e a l).atEnd = r.isEmpty := rfl

/-- what is read behind a value, or of a comment -/
theorem commentTrail_is {st : St} {p : Str × Str × Str} {s : St} (h : parseCommentTrail true st = .ok p s) (hn : NoLoneCr st.rest) :
    ∃ cl, EndIs p.1 p.2.1 p.2.2 cl ∧ (cl = true ∨ s.rest = []) := by
  rcases st with ⟨r, e, a, l⟩
  unfold parseCommentTrail at h
  rw [getSt_bind] at h
  by_cases h1 : (St.mk r e a l).atEnd = true
  · rw [if_pos h1] at h
    have : r = [] := by simpa [St.atEnd] using h1
    cases h
    exact ⟨false, ⟨Spaces.nil, cmt_nil, [], [], rfl, Spaces.nil, .inr ⟨rfl, rfl⟩⟩, .inr this⟩
  rw [if_neg h1] at h
  obtain ⟨_, s1, q1, h⟩ := bind_ok h
  cases q1
  obtain ⟨_, s1, q1, h⟩ := bind_ok h
  rw [skip_st] at q1
  cases q1
  have hsplit : r = r.takeWhile isSpTabCr ++ r.dropWhile isSpTabCr := List.takeWhile_append_dropWhile.symm
  have hrun := blank_run hn hsplit fun c hc => takeWhile_mem c hc
  have hn2 : NoLoneCr (r.dropWhile isSpTabCr) := NoLoneCr.suffix hn (List.dropWhile_suffix _)
  generalize r.takeWhile isSpTabCr = W at *
  generalize r.dropWhile isSpTabCr = R' at *
  rw [getSt_bind] at h
  rcases R' with _ | ⟨c, R⟩
  · rw [if_pos (by rfl), if_pos rfl] at h
    obtain ⟨t, s2, q2, h⟩ := bind_ok h
    cases h
    cases q2
    rcases hrun with hW | ⟨_, _, _, _, h⟩
    · refine ⟨false, ⟨Spaces.nil, cmt_nil, W, [], by simp, hW, .inr ⟨rfl, rfl⟩⟩, .inr rfl⟩
    · cases h
  by_cases h10 : c = 10
  · rw [if_pos (by rw [h10]; rfl), if_pos rfl] at h
    obtain ⟨t, s2, q2, h⟩ := bind_ok h
    cases h
    subst h10
    cases q2
    refine ⟨true, ⟨Spaces.nil, cmt_nil, ?_⟩, .inl rfl⟩
    rcases hrun with hW | ⟨sp, r', rfl, h4, _⟩
    · exact ⟨W, [10], by simp [List.takeWhile, isSpaces], hW, .inl ⟨rfl, .inl rfl⟩⟩
    · exact ⟨sp, [13, 10], by simp [List.takeWhile, isSpaces], h4, .inl ⟨rfl, .inr rfl⟩⟩
  rw [if_neg (by simp [St.atEnd, St.cur, h10])] at h
  by_cases h35 : c = 35
  · subst h35
    rw [if_pos (show St.cur _ = 35 from rfl)] at h
    obtain ⟨_, s1, q1, h⟩ := bind_ok h
    cases q1
    obtain ⟨_, s1, q1, h⟩ := bind_ok h
    cases q1
    obtain ⟨_, s1, q1, h⟩ := bind_ok h
    cases q1
    obtain ⟨_, s1, q1, h⟩ := bind_ok h
    rw [skip_st] at q1
    cases q1
    have hcm : ∀ x ∈ R.takeWhile isCommentChar, isCommentChar x = true := fun x hx => takeWhile_mem x hx
    have hn3 : NoLoneCr (R.dropWhile isCommentChar) := NoLoneCr.suffix hn2 ((List.dropWhile_suffix _).trans (List.suffix_cons _ _))
    generalize R.takeWhile isCommentChar = C at *
    generalize R.dropWhile isCommentChar = D at *
    rw [getSt_bind] at h
    by_cases hc : (!(St.mk D ([] ++ [35] ++ C) a l).atEnd && !isNl (St.mk D ([] ++ [35] ++ C) a l).cur) = true
    · rw [if_pos hc] at h; cases h
    rw [if_neg hc] at h
    obtain ⟨_, s1, q1, h⟩ := bind_ok h
    cases q1
    obtain ⟨_, s1, q1, h⟩ := bind_ok h
    cases q1
    rw [if_pos rfl] at h
    obtain ⟨t, s2, q2, h⟩ := bind_ok h
    cases h
    have hq : D = [] ∨ ∃ r', D = 10 :: r' ∨ D = 13 :: r' := by
      rcases D with _ | ⟨d, D⟩
      · exact .inl rfl
      · right
        refine ⟨D, ?_⟩
        simp only [St.atEnd, St.cur, List.isEmpty_cons, Bool.not_false, Bool.true_and, Bool.not_eq_true', Bool.not_eq_false, isNl, Bool.or_eq_true,
          beq_iff_eq] at hc
        rcases hc with rfl | rfl
        · exact .inl rfl
        · exact .inr rfl
    obtain ⟨nl, cl, t1, t2, t3, _⟩ := trail_is q2 hn3 hq
    refine ⟨cl, ⟨?_, cmt_some hcm, [], nl, by rw [t1], Spaces.nil, t2⟩, t3.imp_right And.left⟩
    rcases hrun with hW | ⟨_, _, _, _, h⟩
    · exact hW
    · cases h
  · rw [if_neg (show ¬ St.cur (St.mk (c :: R) _ _ _) = 35 from h35)] at h; cases h

theorem comment_there {R e : Str} {a : List Key} {l : List Loss} {p : Str × Str × Str} {s : St}
    (h : parseCommentTrail true ⟨35 :: R, e, a, l⟩ = .ok p s) : p.2.1 ≠ [] := by
  unfold parseCommentTrail at h
  rw [getSt_bind, if_neg (by rintro ⟨⟩)] at h
  obtain ⟨_, s1, q1, h⟩ := bind_ok h
  cases q1
  obtain ⟨_, s1, q1, h⟩ := bind_ok h
  have q1' : skip isSpTabCr ⟨35 :: R, [], a, l⟩ = .ok () ⟨35 :: R, [], a, l⟩ := rfl
  have q1 := q1'.symm.trans q1
  cases q1
  rw [getSt_bind, if_neg (by rintro ⟨⟩), if_pos (by rfl)] at h
  obtain ⟨_, s1, q1, h⟩ := bind_ok h
  cases q1
  obtain ⟨_, s1, q1, h⟩ := bind_ok h
  cases q1
  obtain ⟨_, s1, q1, h⟩ := bind_ok h
  cases q1
  obtain ⟨_, s1, q1, h⟩ := bind_ok h
  rw [skip_st] at q1
  cases q1
  generalize R.takeWhile isCommentChar = C at *
  generalize R.dropWhile isCommentChar = D at *
  rw [getSt_bind] at h
  by_cases hc : (!(St.mk D ([] ++ [35] ++ C) a l).atEnd && !isNl (St.mk D ([] ++ [35] ++ C) a l).cur) = true
  · rw [if_pos hc] at h; cases h
  rw [if_neg hc] at h
  obtain ⟨_, s1, q1, h⟩ := bind_ok h
  cases q1
  obtain ⟨_, s1, q1, h⟩ := bind_ok h
  cases q1
  rw [if_pos rfl] at h
  obtain ⟨t, s2, q2, h⟩ := bind_ok h
  cases h
  simp

/-! ### keys -/

/-- the end of a part of a key -/
def endKey (k : P Key) (key : SKey) : P Key := do
  let st ← getSt
  if st.cur = 46 then
    step
    let k ← k
    return (Key.single key).concat k
  else return .single key

/-- a part of a key, and what follows -/
def keyBody (k : P Key) : P Key := do
  mark
  skip isSpaces
  let st ← getSt
  if st.cur = 34 || st.cur = 39 then
    let lead ← extract
    let kt := if st.cur = 34 then KeyType.basic else KeyType.literal
    match ← parseString (if st.cur = 34 then .slb else .sll) with
    | .str ty v o _ =>
      if ty.isMultiline then fail .unexpectedChar
      else
        mark
        skip isSpaces
        let tail ← extract
        endKey k { key := v, t := kt, sep := [], orig := lead ++ (ty.value ++ o ++ ty.value) ++ tail }
    | _ => raise .typeError
  else
    skip fun c => isBareChar c || isSpaces c
    let original ← extract
    let key := strip original
    if key.isEmpty then fail .emptyKey
    else if key.contains 32 then fail .generic
    else endKey k { key := key, t := .bare, sep := [], orig := original }

theorem parseKey_body (n : Nat) : parseKey (n + 1) = keyBody (parseKey n) := rfl

theorem endKey_single {k : P Key} {key sk : SKey} {st s : St} (h : endKey k key st = .ok (.single sk) s) :
    (∀ k', endKey k' key st = .ok (.single sk) s) ∧ s = st := by
  unfold endKey at h
  rw [getSt_bind] at h
  by_cases hc : st.cur = 46
  · rw [if_pos hc] at h
    obtain ⟨_, _, _, h⟩ := bind_ok h
    obtain ⟨x, _, _, h⟩ := bind_ok h
    have := (Res.ok.inj h).1
    rcases x with _ | _ <;> cases this
  · rw [if_neg hc] at h
    cases h
    refine ⟨fun k' => ?_, rfl⟩
    unfold endKey
    rw [getSt_bind, if_neg hc]; rfl

theorem dropWhile_stops {q : Chr → Bool} {x : Str} {c : Chr} {r : Str} (hx : x.dropWhile q = c :: r) : q c = false := by
  have := List.head?_dropWhile_not q x
  rw [hx] at this
  simpa using this

theorem bind_eq {α β : Type} {p : P β} {f : β → P α} {st s : St} {b : β} (h : p st = .ok b s) : (p >>= f) st = f b s := by
  rw [Tomlkit.P.bind_def, h]

theorem strip_nil_of {s : Str} (h : ∀ c ∈ s, isSpaces c = true) : strip s = [] := by
  have hd : s.dropWhile isUniSpace = [] := by
    induction s with
    | nil => rfl
    | cons c s ih =>
      rw [List.dropWhile_cons_of_pos (spaces_uni (h c (by simp)))]
      exact ih fun x hx => h x (by simp [hx])
  unfold strip
  rw [hd]; rfl

theorem keyBody_single {k : P Key} {st : St} {sk : SKey} {s : St} (h : keyBody k st = .ok (.single sk) s) :
    (∀ k', keyBody k' st = .ok (.single sk) s) ∧ (∀ c r, s.rest = c :: r → isSpaces c = false) ∧
    ∃ c r, st.rest.dropWhile isSpaces = c :: r ∧ (c = 34 ∨ c = 39 ∨ isBareChar c = true) := by
  rcases st with ⟨r, e, a, l⟩
  unfold keyBody at h ⊢
  obtain ⟨_, s1, q1, h⟩ := bind_ok h
  cases q1
  obtain ⟨_, s1, q1, h⟩ := bind_ok h
  rw [skip_st] at q1
  cases q1
  simp only [getSt_bind, bind_eq (show mark (St.mk r e a l) = .ok () ⟨r, [], a, l⟩ from rfl), bind_eq (skip_st isSpaces r [] a l)] at h ⊢
  have hd : ∀ c r', r.dropWhile isSpaces = c :: r' → isSpaces c = false := fun c r' hx => dropWhile_stops hx
  have hW : ∀ c ∈ r.takeWhile isSpaces, isSpaces c = true := fun c hc => takeWhile_mem c hc
  generalize r.takeWhile isSpaces = W at *
  generalize r.dropWhile isSpaces = R at *
  by_cases hc : (decide ((St.mk R ([] ++ W) a l).cur = 34) || decide ((St.mk R ([] ++ W) a l).cur = 39)) = true
  · rw [if_pos hc] at h
    have hfst : ∃ c r, R = c :: r ∧ (c = 34 ∨ c = 39 ∨ isBareChar c = true) := by
      rcases R with _ | ⟨c, R⟩
      · simp [St.cur] at hc
      · have hc : c = 34 ∨ c = 39 := (Bool.or_eq_true _ _ ▸ hc).imp of_decide_eq_true of_decide_eq_true
        exact ⟨c, R, rfl, hc.elim .inl fun h => .inr (.inl h)⟩
    obtain ⟨_, s1, q1, h⟩ := bind_ok h
    cases q1
    obtain ⟨i, s1, q1, h⟩ := bind_ok h
    rcases i with _ | _ | _ | _ | _ | _ | _ | _ | _ | _ | _ | _ | _ | _
    all_goals first | (cases h; done) | skip
    rename_i ty v o tv
    dsimp only at h
    by_cases hm : ty.isMultiline = true
    · rw [if_pos hm] at h; cases h
    rw [if_neg hm] at h
    rcases s1 with ⟨r1, e1, a1, l1⟩
    obtain ⟨_, s2, q2, h⟩ := bind_ok h
    cases q2
    obtain ⟨_, s2, q2, h⟩ := bind_ok h
    rw [skip_st] at q2
    cases q2
    obtain ⟨_, s2, q2, h⟩ := bind_ok h
    cases q2
    obtain ⟨g1, g2⟩ := endKey_single h
    refine ⟨fun k' => ?_, ?_, hfst⟩
    · rw [if_pos hc]
      refine (bind_eq rfl).trans ((bind_eq q1).trans ?_)
      dsimp only
      rw [if_neg hm]
      refine (bind_eq rfl).trans ((bind_eq (skip_st _ _ _ _ _)).trans ((bind_eq rfl).trans ?_))
      exact g1 k'
    · intro c r' hr
      rw [g2] at hr
      exact dropWhile_stops hr
  · rw [if_neg hc] at h
    obtain ⟨_, s2, q2, h⟩ := bind_ok h
    rw [skip_st] at q2
    cases q2
    obtain ⟨_, s2, q2, h⟩ := bind_ok h
    cases q2
    dsimp only at h
    generalize hq : (fun c => isBareChar c || isSpaces c) = q at *
    by_cases h1 : (strip ([] ++ W ++ R.takeWhile q)).isEmpty = true
    · rw [if_pos h1] at h; cases h
    rw [if_neg h1] at h
    by_cases h2 : (strip ([] ++ W ++ R.takeWhile q)).contains 32 = true
    · rw [if_pos h2] at h; cases h
    rw [if_neg h2] at h
    obtain ⟨g1, g2⟩ := endKey_single h
    refine ⟨fun k' => ?_, ?_, ?_⟩
    · rw [if_neg hc]
      refine (bind_eq (skip_st _ _ _ _ _)).trans ((bind_eq rfl).trans ?_)
      dsimp only
      rw [if_neg h1, if_neg h2]
      exact g1 k'
    · intro c r' hr
      rw [g2] at hr
      have := dropWhile_stops hr
      rw [← hq] at this
      simp only [Bool.or_eq_false_iff] at this
      exact this.2
    · have hnil : R.takeWhile q = [] → False := by
        intro h0
        apply h1
        rw [h0, List.append_nil, List.nil_append, strip_nil_of hW]; rfl
      rcases R with _ | ⟨c, R⟩
      · exact (hnil rfl).elim
      · refine ⟨c, R, rfl, .inr (.inr ?_)⟩
        by_cases hqc : q c = true
        · rw [← hq] at hqc
          simp only [Bool.or_eq_true] at hqc
          rcases hqc with h | h
          · exact h
          · rw [hd c R rfl] at h; cases h
        · exact (hnil (List.takeWhile_cons_of_neg hqc)).elim

theorem bare_first {c : Chr} (h : c = 34 ∨ c = 39 ∨ isBareChar c = true) : isSpTabCr c = false ∧ c ≠ 125 ∧ c ≠ 44 ∧ c ≠ 10 ∧ c ≠ 35 ∧ c ≠ 91 := by
  rcases h with rfl | rfl | h
  · decide
  · decide
  · refine ⟨?_, ?_, ?_, ?_, ?_, ?_⟩
    · rw [← Bool.not_eq_true]
      intro h0
      simp only [isSpTabCr, Bool.or_eq_true, beq_iff_eq] at h0
      rcases h0 with (rfl | rfl) | rfl <;> revert h <;> decide
    all_goals (rintro rfl; revert h; decide)

/-- a key of one part is read again -/
theorem key_reads {m : Nat} {r e : Str} {a : List Key} {sk : SKey} {s : St} (h : parseKey m ⟨r, e, a, []⟩ = .ok (.single sk) s)
    (hl : s.loss = []) (hr : ∀ c r', r = c :: r' → isSpaces c = false) {T : Str} (hs : s.rest = 61 :: T) :
    KeyReads sk.orig sk.key ∧ sk.dotted = false ∧ sk.sep = [] := by
  obtain ⟨u, hate, hk⟩ := keeps_fact (parseKey_keeps m _) h hl
  have hu : sk.orig = u := hk.text
  have hp := hk.plain sk (by simp [Key.parts])
  have hrest : r = u ++ 61 :: T := by rw [← hs]; exact hate
  rcases m with _ | m
  · cases h
  rw [parseKey_body] at h
  obtain ⟨g1, _, c, r', hc, hcc⟩ := keyBody_single h
  have hdr : r.dropWhile isSpaces = r := by
    rcases r with _ | ⟨d, r⟩
    · rfl
    · rw [List.dropWhile_cons_of_neg (by rw [hr d r rfl]; decide)]
  simp only [hdr] at hc
  have hune : u ≠ [] := by
    rintro rfl
    rw [hc] at hrest
    cases hrest
    rcases hcc with h | h | h
    · cases h
    · cases h
    · revert h; decide
  obtain ⟨d, u', rfl⟩ := List.exists_cons_of_ne_nil hune
  have hd : c = d := by rw [hc] at hrest; exact (List.cons.inj hrest).1
  subst hd
  refine ⟨⟨⟨c, u', hu, bare_first hcc⟩, ?_⟩, hp⟩
  intro n tail e' a' l
  have h1 : parseKey (m + 1) ⟨(c :: u' ++ [61]) ++ T, e, a, []⟩ = .ok (.single sk) s := by
    rw [parseKey_body, List.append_assoc]
    show keyBody _ ⟨c :: u' ++ 61 :: T, e, a, []⟩ = _
    rw [← hrest]; exact h
  obtain ⟨w, hw, h2⟩ := (Rel.parseKey (t := T) (t' := tail) (a' := a') (l := l) (m + 1) ((c :: u' ++ [61]).length + 1) (c :: u' ++ [61]) e a
    (by omega)) _ _ h1 hl (by rw [hs]; simp) (.inr (by rw [hs]; simp))
  have hw1 : w = [61] := by
    rw [hs] at hw
    have : [61] ++ T = w ++ T := hw
    exact (List.append_cancel_right this).symm
  subst hw1
  rw [parseKey_body] at h2
  have h3 := (keyBody_single h2).1 (parseKey n)
  rw [List.append_assoc] at h3
  -- the text extracted before does not matter
  have h4 : keyBody (parseKey n) ⟨sk.orig ++ 61 :: tail, e', a', l⟩ = keyBody (parseKey n) ⟨c :: u' ++ ([61] ++ tail), e, a', l⟩ := by
    rw [hu]; rfl
  refine ⟨sk, s.ext, rfl, rfl, hp.1, hp.2, ?_⟩
  rw [parseKey_body, h4, h3]
  rfl

/-- the separator -/
theorem sep_is {r e : Str} {a : List Key} {l : List Loss} {sep : Str} {s : St} (h : parseSep ⟨r, e, a, l⟩ = .ok sep s)
    (hr : ∀ c r', r = c :: r' → isSpaces c = false) : ∃ sp T, r = 61 :: (sp ++ T) ∧ sep = 61 :: sp ∧ Spaces sp ∧ s.rest = T := by
  unfold parseSep at h
  obtain ⟨_, s1, q1, h⟩ := bind_ok h
  cases q1
  rw [getSt_bind] at h
  dsimp only at h
  have hm : ∀ c ∈ r.takeWhile isKvSep, isKvSep c = true := fun c hc => takeWhile_mem c hc
  have hsp : r = r.takeWhile isKvSep ++ r.dropWhile isKvSep := List.takeWhile_append_dropWhile.symm
  have hd : r.dropWhile isKvSep = r.drop (r.takeWhile isKvSep).length := dropWhile_drop _ _
  have ht : r.take (r.takeWhile isKvSep).length = r.takeWhile isKvSep :=
    (congrArg (List.take _) hsp).trans List.take_left
  by_cases h1 : (!(r.takeWhile isKvSep).contains 61) = true
  · rw [if_pos h1] at h
    obtain ⟨_, _, _, h⟩ := bind_ok h
    cases h
  rw [if_neg h1] at h
  by_cases h2 : ((r.takeWhile isKvSep).drop (((r.takeWhile isKvSep).takeWhile (· != 61)).length + 1)).contains 61 = true
  · rw [if_pos h2] at h
    obtain ⟨_, _, _, h⟩ := bind_ok h
    cases h
  rw [if_neg h2] at h
  obtain ⟨_, s1, q1, h⟩ := bind_ok h
  cases q1
  cases h
  simp only [← hd, ht, List.nil_append]
  generalize r.takeWhile isKvSep = W at *
  generalize r.dropWhile isKvSep = D at *
  rcases W with _ | ⟨c, W⟩
  · exact absurd rfl h1
  · have hc : c = 61 := by
      have h3 := hm c (by simp)
      have h4 := hr c (W ++ D) hsp
      simp only [isKvSep, isSpaces, Bool.or_eq_true, Bool.or_eq_false_iff, beq_iff_eq, beq_eq_false_iff_ne] at h3 h4
      rcases h3 with (h | h) | h
      · exact h
      · exact absurd h h4.1
      · exact absurd h h4.2
    subst hc
    refine ⟨W, D, hsp, rfl, ?_, rfl⟩
    intro x hx
    have h3 := hm x (by simp [hx])
    have h4 : x ≠ 61 := by
      rintro rfl
      apply h2
      simp only [List.takeWhile, bne_self_eq_false, List.length_nil, List.drop_succ_cons, List.drop_zero]
      simpa using hx
    simp only [isKvSep, isSpaces, Bool.or_eq_true, beq_iff_eq] at h3 ⊢
    rcases h3 with (h | h) | h
    · exact absurd h h4
    · exact .inl h
    · exact .inr h

/-! ### key/value lines -/

theorem rereads_parsed {q : Prop} {n : Nat} {st : St} {i : Item} {s : St} (hst : st.loss = []) (h : parseValue n st = .ok i s) (hl : s.loss = []) (t : Trivia) :
    Rereads q (i.setTrivia t) := by
  have hv := keeps_fact ((value_keeps n).1 st) h hl
  have hr := value_reads (q := q) hst h hl
  have hk : i.isTableLike = false ∧ i.isWhitespace = false ∧ i.isNull = false ∧ i.isComment = false := by
    have := hv.simple
    cases i <;> first | exact ⟨rfl, rfl, rfl, rfl⟩ | cases this
  have : Rereads q i := by
    refine ⟨hk.1, hk.2.1, hk.2.2.1, hk.2.2.2, fun t' _ => ?_⟩
    rw [asString_setTrivia hv.clean hv.simple]
    refine hr.imp ?_
    rintro j ⟨t2, rfl⟩
    refine ⟨by rw [isTableLike_setTrivia]; exact hk.1, ?_, 0, fun m _ => unwrap_setTrivia m i t2⟩
    have := hk.2.1
    cases i <;> first | rfl | cases this
  exact this.setTrivia t

/-- a key/value line as it is read -/
structure PairHas (k : Key) (v : Item) (cl : Bool) : Prop where
  key : ∀ sk, k = .single sk → KeySep sk
  plain : v.isTableLike = false
  entry : ∀ sk, k = .single sk → Spaces v.trivia.commentWs → FEnt (.mk (some sk) v) cl
  comment : Cmt v.trivia.comment
  cws : ∀ c ∈ v.trivia.commentWs, isUniSpace c = true ∧ c ≠ 10 ∧ c ≠ 13
  one : ∀ p, k.parts = [p] → k = .single p

theorem note_quiet {b : Bool} {k : Loss} {st s : St} {x : Unit} (h : note b k st = .ok x s) (hl : s.loss = []) : s = st := by
  unfold note at h
  cases h
  cases b
  · rfl
  · simp at hl

theorem pair_has {n : Nat} {st : St} {p : Key × Item} {s : St} (hst : st.loss = []) (h : parseKeyValue n true st = .ok p s) (hl : s.loss = [])
    (hn : NoLoneCr st.rest) : ∃ cl, PairHas p.1 p.2 cl ∧ (cl = true ∨ s.rest = []) := by
  rcases n with _ | n
  · cases h
  rcases st with ⟨r, e, a, l⟩
  simp only at hst
  subst hst
  unfold parseKeyValue at h
  obtain ⟨_, s1, q1, h⟩ := bind_ok h
  cases q1
  obtain ⟨_, s1, q1, h⟩ := bind_ok h
  rw [skip_st] at q1
  cases q1
  obtain ⟨ind, s1, q1, h⟩ := bind_ok h
  cases q1
  have hind : Spaces (r.takeWhile isSpaces) := fun c hc => takeWhile_mem c hc
  have hd : ∀ c r', r.dropWhile isSpaces = c :: r' → isSpaces c = false := fun c r' hx => dropWhile_stops hx
  have hnR : NoLoneCr (r.dropWhile isSpaces) := NoLoneCr.suffix hn (List.dropWhile_suffix _)
  generalize r.takeWhile isSpaces = W at *
  generalize r.dropWhile isSpaces = R at *
  obtain ⟨key, s2, q2, h⟩ := bind_ok h
  obtain ⟨sep, s3, q3, h⟩ := bind_ok h
  obtain ⟨val, s4, q4, h⟩ := bind_ok h
  dsimp only at h
  rw [if_pos rfl] at h
  obtain ⟨⟨cws, cm, tr⟩, s5, q5, h⟩ := bind_ok h
  dsimp only at h
  obtain ⟨_, s6, q6, h⟩ := bind_ok h
  cases h
  have hs5 := note_quiet q6 hl
  subst hs5
  have m5 := (mono_parseCommentTrail _ _ _ _ q5)
  have l4 := loss_nil m5.2 hl
  have m4 := (mono_parseValue _ _ _ _ q4)
  have l3 := loss_nil m4.2 l4
  have m3 := (mono_parseSep _ _ _ q3)
  have l2 := loss_nil m3.2 l3
  have m2 := (mono_parseKeyHere _ _ _ q2)
  have hn4 : NoLoneCr s4.rest := NoLoneCr.suffix hnR (m4.1.trans (m3.1.trans m2.1))
  obtain ⟨cl, he, hcl⟩ := commentTrail_is q5 hn4
  have hR := rereads_parsed (q := False) l3 q4 l4
  have hv := keeps_fact ((value_keeps n).1 s3) q4 l4
  have hws : val.isWhitespace = false := by
    have := hv.simple
    cases val <;> first | rfl | cases this
  have hkey : ∀ sk, key.setSep (key.sep ++ sep) = .single sk → KeySep sk := by
    intro sk hsk
    rcases key with k0 | ⟨_, _, _⟩
    · cases hsk
      have q2' : parseKey (R.length + 1) ⟨R, [] ++ W, a, []⟩ = .ok (.single k0) s2 := q2
      rcases s2 with ⟨r2, e2, a2, l2'⟩
      have hend := (keyBody_single (by rw [parseKey_body] at q2'; exact q2')).2.1
      obtain ⟨sp, T, t1, t2, t3, _⟩ := sep_is q3 hend
      obtain ⟨k1, k2, k3⟩ := key_reads q2' l2 hd t1
      refine ⟨k2, [], sp, ?_, by rw [List.append_nil]; exact k1, t3⟩
      show k0.sep ++ sep = _
      rw [k3, t2]
    · cases hsk
  have hone : ∀ p, (key.setSep (key.sep ++ sep)).parts = [p] → key.setSep (key.sep ++ sep) = .single p := by
    obtain ⟨u, _, hki⟩ := keeps_fact (parseKeyHere_keeps _) q2 l2
    intro p hp
    rcases key with k0 | ⟨_, _, _⟩
    · cases hp; rfl
    · have := hki.one p (by simpa [Key.setSep, Key.parts] using hp)
      cases this
  refine ⟨cl, ⟨hkey, (hR _).1, ?_, ?_, ?_, hone⟩, hcl⟩
  · intro sk hsk hc
    refine .kv (hkey sk hsk) (hR _) ?_
    rw [setTrivia_trivia hws] at hc ⊢
    exact ⟨hind, hc, ⟨[], _, rfl, Spaces.nil, he.comment⟩, he.trail⟩
  · rw [setTrivia_trivia hws]; exact he.comment
  · rw [setTrivia_trivia hws]
    intro c hc
    have hsp : ∀ c ∈ cws, isUniSpace c = true ∧ c ≠ 10 ∧ c ≠ 13 := fun c hc => by
      have := he.cws c hc
      simp only [isSpaces, Bool.or_eq_true, beq_iff_eq] at this
      rcases this with rfl | rfl <;> exact ⟨by decide, by decide, by decide⟩
    by_cases h0 : val.trivia.commentWs.isEmpty = true
    · simp only [h0, if_true] at hc; exact hsp c hc
    · simp only [h0] at hc; exact hv.cws c hc

end Tomlkit
