import Verif.Proofs.LocalValues
/-!
# The text of a parsed value is read as the same value anywhere
-/
namespace Tomlkit
open _root_.Spec Tomlkit.Spec

theorem ends_of {b tail : Str} (hb : Blank b) (ht : DateEnds tail) : Ends (b ++ tail) := by
  have h : ∀ c r, b ++ tail = c :: r → isValueEnd c = true := by
    intro c r hc
    rcases blank_valueEnds hb ht with h | ⟨d, q, h, hd⟩
    · rw [h] at hc; cases hc
    · rw [h] at hc; cases hc; exact hd
  refine ⟨fun c r hc => ?_, fun c r hc => ?_, fun c r hc => by show (!isValueEnd c) = false; rw [h c r hc]; rfl⟩
  · have := h c r hc
    by_cases hq : c = 34
    · subst hq; cases this
    · simpa using hq
  · have := h c r hc
    by_cases hq : c = 39
    · subst hq; cases this
    · simpa using hq

/-- what follows a date, parser.py:489-513 -/
def dateRest (raw : Str) (v : Rfc) : P Item := do
  mark
  skip fun c => !isDateEnd c
  let timeRaw ← extract
  let timePart := rstrip timeRaw
  let cws := timeRaw.drop timePart.length
  if timePart.isEmpty then
    match v with
    | .date d => return .date d { commentWs := cws } raw
    | .datetime d => return .date d.date { commentWs := cws } raw
    | .time _ => raise .assertion
  else
    match parseRfc3339 (raw ++ timePart) with
    | .ok (.datetime d) => return .datetime d { commentWs := cws } (raw ++ timePart)
    | .ok _ => raise .assertion
    | .error e => dateErr .invalidDate e

theorem dateRest_red {raw T : Str} {v : Rfc} {Y' e' a' k' ws'} (h1 : (Y'.takeWhile fun c => !isDateEnd c) = rstrip T ++ ws')
    (h2 : rstrip (rstrip T ++ ws') = rstrip T) : dateRest raw v ⟨Y', e', a', k'⟩ =
      (if (rstrip T).isEmpty then
        match v with
        | .date d => return .date d { commentWs := ws' } raw
        | .datetime d => return .date d.date { commentWs := ws' } raw
        | .time _ => raise .assertion
      else
        match parseRfc3339 (raw ++ rstrip T) with
        | .ok (.datetime d) => return .datetime d { commentWs := ws' } (raw ++ rstrip T)
        | .ok _ => raise .assertion
        | .error e => Tomlkit.dateErr .invalidDate e : P Item) ⟨Y'.dropWhile fun c => !isDateEnd c, rstrip T ++ ws', a', k'⟩ := by
  unfold dateRest
  rw [mark_bind, skip_bind, extract_bind]
  dsimp only
  rw [List.nil_append, h1, h2, List.drop_left]

theorem dateRest_shape {raw Y e : Str} {a : List Key} {k : List Loss} {i : Item} {s : St} {v : Rfc} (h : dateRest raw v ⟨Y, e, a, k⟩ = .ok i s) :
    ∃ tp, tp = rstrip (Y.takeWhile fun c => !isDateEnd c) ∧ s.rest = (Y.dropWhile fun c => !isDateEnd c) ∧ i.asString = raw ++ tp ∧
      i.trivia.commentWs = (Y.takeWhile fun c => !isDateEnd c).drop tp.length ∧
      ∀ Y' e' a' k' ws', (Y'.takeWhile fun c => !isDateEnd c) = tp ++ ws' → rstrip (tp ++ ws') = tp →
        dateRest raw v ⟨Y', e', a', k'⟩ = .ok (i.setTrivia { commentWs := ws' }) ⟨Y'.dropWhile fun c => !isDateEnd c, tp ++ ws', a', k'⟩ := by
  refine ⟨rstrip (Y.takeWhile fun c => !isDateEnd c), rfl, ?_⟩
  generalize hT : (Y.takeWhile fun c => !isDateEnd c) = T
  rw [dateRest_red (T := T) (ws' := T.drop (rstrip T).length) (by rw [hT, rstrip_split]) (by rw [rstrip_split])] at h
  by_cases hemp : (rstrip T).isEmpty = true
  · rw [if_pos hemp] at h
    have he : rstrip T = [] := by simpa using hemp
    rcases v with d | d | d <;> cases h
    · refine ⟨rfl, by rw [he, List.append_nil]; rfl, rfl, fun Y' e' a' k' ws' h1 h2 => ?_⟩
      rw [dateRest_red h1 h2, if_pos hemp]
      rfl
    · refine ⟨rfl, by rw [he, List.append_nil]; rfl, rfl, fun Y' e' a' k' ws' h1 h2 => ?_⟩
      rw [dateRest_red h1 h2, if_pos hemp]
      rfl
  · rw [if_neg hemp] at h
    rcases hp : parseRfc3339 (raw ++ rstrip T) with er | (d | d | d) <;> rw [hp] at h
    · cases er <;> cases h
    all_goals first | (cases h; done) | skip
    cases h
    refine ⟨rfl, rfl, rfl, fun Y' e' a' k' ws' h1 h2 => ?_⟩
    rw [dateRest_red h1 h2, if_neg hemp, hp]
    rfl

/-- what the tail of a number or a date does -/
theorem digitsTail_shape {raw Y e : Str} {a : List Key} {k : List Loss} {i : Item} {s : St} (h : digitsTail raw ⟨Y, e, a, k⟩ = .ok i s) :
    (i.asString = raw ∧ i.trivia = {} ∧ s.rest = Y ∧ ∀ st, digitsTail raw st = .ok i st) ∨
    (∃ tp, tp = rstrip (Y.takeWhile fun c => !isDateEnd c) ∧ s.rest = (Y.dropWhile fun c => !isDateEnd c) ∧ i.asString = raw ++ tp ∧
      i.trivia.commentWs = (Y.takeWhile fun c => !isDateEnd c).drop tp.length ∧
      ∀ Y' e' a' k' ws', (Y'.takeWhile fun c => !isDateEnd c) = tp ++ ws' → rstrip (tp ++ ws') = tp →
        digitsTail raw ⟨Y', e', a', k'⟩ = .ok (i.setTrivia { commentWs := ws' }) ⟨Y'.dropWhile fun c => !isDateEnd c, tp ++ ws', a', k'⟩) := by
  have hnum : (match parseNumber raw {} with | some i => (pure i : P Item) | none => fail .invalidNumber) ⟨Y, e, a, k⟩ = .ok i s →
      i.asString = raw ∧ i.trivia = {} ∧ s.rest = Y ∧
      ∀ st, (match parseNumber raw {} with | some i => (pure i : P Item) | none => fail .invalidNumber) st = .ok i st := by
    intro h
    rcases hp : parseNumber raw {} with _ | j <;> rw [hp] at h <;> cases h
    obtain ⟨h1, h2, _⟩ := parseNumber_text hp
    exact ⟨h1, h2, rfl, fun _ => rfl⟩
  unfold digitsTail at h ⊢
  dsimp only at h ⊢
  rcases hm : matchLoose raw with _ | ⟨_ | _, _ | _⟩ <;> rw [hm] at h <;> dsimp only at h ⊢
  · exact .inl (hnum h)
  · exact .inl (hnum h)
  · left
    rcases hp : parseRfc3339 raw with er | (d | d | d) <;> rw [hp] at h
    · cases er <;> cases h
    all_goals first | (cases h; done) | skip
    cases h
    exact ⟨rfl, rfl, rfl, fun _ => rfl⟩
  · right
    rcases hp : parseRfc3339 raw with er | (d | d | d) <;> rw [hp] at h
    · cases er <;> cases h
    all_goals first | (cases h; done) | skip
    · exact dateRest_shape (v := .datetime d) h
    · exact dateRest_shape (v := .date d) h
  · left
    rcases hp : parseRfc3339 raw with er | (d | d | d) <;> rw [hp] at h
    · cases er <;> cases h
    all_goals first | (cases h; done) | skip
    cases h
    exact ⟨rfl, rfl, rfl, fun _ => rfl⟩

theorem rstrip_idem (s : Str) : rstrip (rstrip s) = rstrip s := by
  unfold rstrip
  rw [List.reverse_reverse]
  congr 1
  generalize s.reverse = q
  induction q with
  | nil => rfl
  | cons c q ih =>
    by_cases hc : isUniSpace c = true
    · rw [List.dropWhile_cons_of_pos hc]; exact ih
    · rw [List.dropWhile_cons_of_neg hc, List.dropWhile_cons_of_neg hc]

theorem rstrip_blank {s b : Str} (hb : Blank b) : rstrip (s ++ b) = rstrip s := by
  unfold rstrip
  rw [List.reverse_append]
  congr 1
  have hr : ∀ c ∈ b.reverse, isUniSpace c = true := fun c hc => by rw [hb c (List.mem_reverse.1 hc)]; rfl
  exact List.dropWhile_append_of_pos hr

theorem takeWhile_mem {q : Chr → Bool} {s : Str} : ∀ c ∈ s.takeWhile q, q c = true := by
  have := List.all_takeWhile (l := s) (p := q)
  rwa [List.all_eq_true] at this

/-- a number or a date is read anywhere -/
theorem digits_reads {q : Prop} {n : Nat} {c : Chr} {r e : Str} {a : List Key} {k : List Loss} {i : Item} {s : St} (hc : isDigit c = true)
    (h : parseValue n ⟨c :: r, e, a, k⟩ = .ok i s) (hs : i.isSimple = true) : ReadsTo q i.asString (fun j => ∃ t, j = i.setTrivia t) := by
  have hd : 48 ≤ c ∧ c ≤ 57 := by simpa [isDigit] using hc
  rcases n with _ | n
  · rw [parseValue] at h; cases h
  have h0 := parseValue_at_digit n (r := r) (tail := []) hd e a k
  rw [List.append_nil] at h0
  rw [h0, parseDigits_tail, skip_bind, extract_bind] at h
  dsimp only at h
  rw [List.nil_append] at h
  have hce : isValueEnd c = false := by
    unfold isValueEnd
    simp
    omega
  generalize hY : (c :: r).dropWhile (fun c => !isValueEnd c) = Y at h
  have hraw : ∃ r0, (c :: r).takeWhile (fun c => !isValueEnd c) = c :: r0 ∧ ∀ x ∈ c :: r0, isValueEnd x = false := by
    have hm := takeWhile_mem (q := fun c => !isValueEnd c) (s := c :: r)
    rw [List.takeWhile_cons_of_pos (by simp [hce])] at hm ⊢
    refine ⟨_, rfl, fun x hx => ?_⟩
    simpa using hm x hx
  obtain ⟨r0, hr0, hall⟩ := hraw
  rw [hr0] at h
  have hYe : StopsAt (fun c => !isValueEnd c) Y := by
    intro d q hq
    rw [← hY] at hq
    have := List.head_dropWhile_not (fun c => !isValueEnd c) (l := c :: r) (by rw [hq]; simp)
    simp only [hq, List.head_cons] at this
    exact this
  intro m b tail e' a' l hm hb ht
  rcases m with _ | m
  · omega
  -- reading `c :: r0` again, before `Y'`
  have hread : ∀ Y', ValueEnds Y' → parseValue (m + 1) ⟨c :: r0 ++ Y', e', a', l⟩ = digitsTail (c :: r0) ⟨Y', c :: r0, a', l⟩ := by
    intro Y' hY'
    rw [parseValue_at_digit m (r := r0) (tail := Y') hd e' a' l, parseDigits_tail, skip_bind, extract_bind]
    obtain ⟨h1, h2⟩ := skip_value hall hY'
    dsimp only
    rw [h1, h2, List.nil_append]
  have htl : ∀ t, (i.setTrivia t).isTableLike = false ∧ (i.setTrivia t).isWhitespace = false := by
    intro t; cases i <;> first | exact ⟨rfl, rfl⟩ | cases hs
  have htl0 : i.isTableLike = false ∧ i.isWhitespace = false := by
    cases i <;> first | exact ⟨rfl, rfl⟩ | cases hs
  rcases digitsTail_shape h with ⟨h1, h2, h3, h4⟩ | ⟨tp, h1, h2, h3, h4, h5⟩
  · refine ⟨i, ⟨b ++ tail, c :: r0, a', l⟩, ?_, fun t => ⟨t, rfl⟩, htl0.1, htl0.2, rfl, .inl ⟨by rw [h2], rfl⟩, fun _ => rfl⟩
    rw [h1, hread _ (blank_valueEnds hb ht), h4]
  · have htp : ∀ x ∈ tp, isDateEnd x = false := by
      intro x hx
      rw [h1] at hx
      have := takeWhile_mem _ ((rstrip_prefix _).subset hx)
      simpa using this
    have hstart : ValueEnds (tp ++ (b ++ tail)) := by
      rcases htp' : tp with _ | ⟨d, q⟩
      · rw [List.nil_append]; exact blank_valueEnds hb ht
      · right
        refine ⟨d, q ++ (b ++ tail), rfl, ?_⟩
        have hpre : tp <+: Y := by
          rw [h1]
          exact (rstrip_prefix _).trans (List.takeWhile_prefix _)
        obtain ⟨z, hz⟩ := hpre
        rw [htp'] at hz
        have := hYe d (q ++ z) (by rw [← hz]; rfl)
        simpa using this
    have hn : ∀ x ∈ tp ++ b, (!isDateEnd x) = true := by
      intro x hx
      rcases List.mem_append.1 hx with hx | hx
      · rw [htp x hx]; rfl
      · rw [hb x hx]; rfl
    have hk : ((tp ++ (b ++ tail)).takeWhile fun c => !isDateEnd c) = tp ++ b ∧ ((tp ++ (b ++ tail)).dropWhile fun c => !isDateEnd c) = tail := by
      rw [← List.append_assoc, List.takeWhile_append_of_pos hn, List.dropWhile_append_of_pos hn, ht.skip.1, ht.skip.2]
      simp
    have hrs : rstrip (tp ++ b) = tp := by
      rw [rstrip_blank hb, h1, rstrip_idem]
    have hgo := h5 _ (c :: r0) a' l b hk.1 hrs
    refine ⟨i.setTrivia { commentWs := b }, ⟨tail, tp ++ b, a', l⟩, ?_, fun t => ⟨t, by rw [setTrivia_twice]⟩, (htl _).1, (htl _).2, rfl, .inr ⟨?_, rfl⟩, fun _ => rfl⟩
    · rw [h3, List.append_assoc, hread _ hstart, hgo, hk.2]
    · rw [setTrivia_triv hs]

/-- a value that begins with no digit has no white space of its own -/
theorem nodigit_trivia {n : Nat} {st : St} {i : Item} {s : St} (hc : isDigit st.cur = false)
    (h : parseValue n st = .ok i s) (hl : s.loss = []) : i.trivia.commentWs = [] := by
  have hstr : ∀ d : StrType, d.isMultiline = false → ∀ st : St, restoring (parseString d) st = .ok i s → i.trivia.commentWs = [] := by
    intro d hd st h
    unfold restoring at h
    rcases hm : parseString d st with ⟨b, s2⟩ | ⟨er, s2⟩ <;> rw [hm] at h <;> cases h
    obtain ⟨ty, x, o, rfl, _⟩ := keeps_fact (parseString_keeps d hd st) hm hl
    rfl
  have hbool : ∀ w v, ∀ st : St, parseBool w v st = .ok i s → i.trivia.commentWs = [] := by
    intro w v st h
    unfold parseBool at h
    by_cases hp : w.isPrefixOf st.rest = true
    · have h := (if_pos hp).symm.trans h
      cases h
      rfl
    · have h := (if_neg hp).symm.trans h
      cases h
  rcases n with _ | n
  · rw [parseValue] at h; cases h
  rw [parseValue, mark_bind, getSt_bind] at h
  revert h
  have hc : isDigit (St.mk st.rest [] st.aot st.loss).cur = false := hc
  generalize St.mk st.rest [] st.aot st.loss = S at hc
  intro h
  by_cases c1 : S.cur = 34
  · rw [if_pos c1] at h; exact hstr _ rfl _ h
  rw [if_neg c1] at h
  by_cases c2 : S.cur = 39
  · rw [if_pos c2] at h; exact hstr _ rfl _ h
  rw [if_neg c2] at h
  by_cases c3 : S.cur = 116
  · rw [if_pos c3] at h; exact hbool _ _ _ h
  rw [if_neg c3] at h
  by_cases c4 : S.cur = 102
  · rw [if_pos c4] at h; exact hbool _ _ _ h
  rw [if_neg c4] at h
  by_cases c5 : S.cur = 91
  · rw [if_pos c5] at h
    obtain ⟨_, _, _, h⟩ := bind_ok h
    obtain ⟨_, _, _, h⟩ := bind_ok h
    cases h
    rfl
  rw [if_neg c5] at h
  by_cases c6 : S.cur = 123
  · rw [if_pos c6] at h
    obtain ⟨_, _, _, h⟩ := bind_ok h
    obtain ⟨_, _, _, h⟩ := bind_ok h
    cases h
    rfl
  rw [if_neg c6] at h
  by_cases c7 : startsSpecialNumber S.rest = true
  · rw [if_pos c7] at h
    obtain ⟨_, _, _, h⟩ := bind_ok h
    obtain ⟨raw, s2, _, h⟩ := bind_ok h
    rcases hp : parseNumber raw {} with _ | j <;> rw [hp] at h <;> cases h
    rw [(parseNumber_text hp).2.1]
  rw [if_neg c7, if_neg (by rw [hc]; decide)] at h
  cases h

/-- the text of a parsed value is read as the same value anywhere -/
theorem value_reads {q : Prop} {n : Nat} {st : St} {i : Item} {s : St} (hst : st.loss = []) (h : parseValue n st = .ok i s) (hl : s.loss = []) :
    ReadsTo q i.asString (fun j => ∃ t, j = i.setTrivia t) := by
  have hv := keeps_fact ((value_keeps n).1 st) h hl
  rcases st with ⟨X, e, a, k⟩
  simp only at hst
  subst hst
  by_cases hd : isDigit (St.mk X e a []).cur = true
  · obtain ⟨r, hr⟩ := cur_pos hd (by decide)
    simp only at hr
    rw [hr] at h
    exact digits_reads hd h hv.simple
  · have hd : isDigit (St.mk X e a []).cur = false := by simpa using hd
    have hw := nodigit_trivia hd h hl
    have htext := hv.text
    unfold Ate at htext
    rw [hw, List.append_nil] at htext
    simp only at htext
    have htl0 : i.isTableLike = false ∧ i.isWhitespace = false := by
      have := hv.simple
      cases i <;> first | exact ⟨rfl, rfl⟩ | cases this
    intro m b tail e' a' l hm hb ht
    have hne : ∀ c r, i.asString = c :: r → isDigit c = false := by
      intro c r hcr
      rw [htext, hcr] at hd
      exact hd
    rw [htext] at h
    have h' : parseValue n ⟨i.asString ++ s.rest, e', a, []⟩ = .ok i s := by
      rw [← h]
      cases n
      · rw [parseValue] at h; cases h
      · rw [parseValue]; rfl
    obtain ⟨w, h1, h2⟩ := (Rel.values (t := s.rest) (t' := b ++ tail) (a' := a') (l := l) n).1 True m i.asString e' a (by omega)
      (fun _ => ⟨ends_of hb ht, hne⟩) i s h' hl (Nat.le_refl _) (.inl trivial)
    have hw0 : w = [] := by
      have := congrArg List.length h1
      rw [List.length_append] at this
      exact List.length_eq_zero_iff.1 (by omega)
    subst hw0
    exact ⟨i, _, h2, fun t => ⟨t, rfl⟩, htl0.1, htl0.2, rfl, .inl ⟨hw, rfl⟩, fun _ => rfl⟩
end Tomlkit
