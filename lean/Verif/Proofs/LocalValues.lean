import Verif.Proofs.LocalRel
/-!
# Values do not depend on what comes after them
-/
namespace Tomlkit
open _root_.Spec Tomlkit.Spec

section
variable {t t' : Str} {l : List Loss} {B : Prop} {u e : Str} {a a' : List Key}

theorem isPrefixOf_iff {w s : Str} : w.isPrefixOf s = true ↔ ∃ r, s = w ++ r := by
  rw [List.isPrefixOf_iff_prefix]
  exact ⟨fun ⟨r, h⟩ => ⟨r, h.symm⟩, fun ⟨r, h⟩ => ⟨r, h.symm⟩⟩

theorem Rel.parseBool (w : Str) (v : Bool) : Rel t t' a' l B (parseBool w v) (parseBool w v) u e a := by
  intro x s1 h hl hlen hB
  unfold Tomlkit.parseBool at h ⊢
  by_cases hp : w.isPrefixOf (u ++ t) = true
  · have h := (if_pos hp).symm.trans h
    cases h
    obtain ⟨r, hr⟩ := isPrefixOf_iff.1 hp
    have h2 := congrArg List.length hr
    simp only [List.length_append, List.length_drop] at hlen h2
    have hw : w.length ≤ u.length := by omega
    have hu : u = w ++ u.drop w.length := by
      have h3 : w = u.take w.length := by
        have := congrArg (List.take w.length) hr
        rw [List.take_append_of_le_length hw, List.take_left'] at this
        · exact this.symm
        · rfl
      conv => lhs; rw [← List.take_append_drop w.length u]
      rw [← h3]
    have hp' : w.isPrefixOf (u ++ t') = true := isPrefixOf_iff.2 ⟨u.drop w.length ++ t', by rw [← List.append_assoc, ← hu]⟩
    refine ⟨u.drop w.length, by rw [List.drop_append_of_le_length hw], (if_pos hp').trans ?_⟩
    simp only [List.drop_append_of_le_length hw]
  · have h := (if_neg hp).symm.trans h
    cases h

/-- what follows the digits, parser.py:463-534 -/
def digitsTail (raw : Str) : P Item :=
  let number : P Item := match parseNumber raw {} with
    | some i => pure i
    | none => fail .invalidNumber
  match matchLoose raw with
  | some (true, true) =>
    match parseRfc3339 raw with
    | .ok (.datetime d) => return .datetime d {} raw
    | .ok _ => raise .assertion
    | .error e => dateErr .invalidDateTime e
  | some (true, false) =>
    match parseRfc3339 raw with
    | .ok (.time _) => raise .assertion
    | .ok r => do
      mark
      skip fun c => !isDateEnd c
      let timeRaw ← extract
      let timePart := rstrip timeRaw
      let cws := timeRaw.drop timePart.length
      if timePart.isEmpty then
        match r with
        | .date d => return .date d { commentWs := cws } raw
        | .datetime d => return .date d.date { commentWs := cws } raw
        | .time _ => raise .assertion
      else
        match parseRfc3339 (raw ++ timePart) with
        | .ok (.datetime d) => return .datetime d { commentWs := cws } (raw ++ timePart)
        | .ok _ => raise .assertion
        | .error e => dateErr .invalidDate e
    | .error e => dateErr .invalidDate e
  | some (false, true) =>
    match parseRfc3339 raw with
    | .ok (.time t) => return .time t {} raw
    | .ok _ => raise .assertion
    | .error e => dateErr .invalidTime e
  | _ => number

theorem parseDigits_tail : parseDigits = (skip (fun c => !isValueEnd c) >>= fun _ => extract >>= digitsTail) := rfl

theorem mono_dateErr {α : Type} (k : PKind) (e : PyErr) : Mono (dateErr k e : P α) := by
  cases e
  · exact mono_fail _
  · exact mono_raise _

theorem mono_digitsTail (raw : Str) : Mono (digitsTail raw) := by
  unfold digitsTail
  repeat' with_reducible first | exact mono_dateErr _ _ | mono

theorem Rel.dateErr {α : Type} (k : PKind) (er : PyErr) (p' : P α) : Rel t t' a' l B (dateErr k er) p' u e a := by
  cases er
  · exact Rel.fail _ _
  · exact Rel.raise _ _

theorem Rel.digitsTail (raw : Str) : Rel t t' a' l False (digitsTail raw) (digitsTail raw) u e a := by
  unfold Tomlkit.digitsTail
  dsimp only
  have hnum : Rel t t' a' l False (match parseNumber raw {} with | some i => Pure.pure i | none => Tomlkit.fail .invalidNumber)
      (match parseNumber raw {} with | some i => Pure.pure i | none => Tomlkit.fail .invalidNumber) u e a := by
    rcases parseNumber raw {} with _ | i
    · exact Rel.fail _ _
    · exact Rel.pure _
  rcases matchLoose raw with _ | ⟨_ | _, _ | _⟩
  · exact hnum
  · exact hnum
  · rcases parseRfc3339 raw with er | (d | d | d)
    · exact Rel.dateErr _ _ _
    all_goals first | exact Rel.pure _ | exact Rel.raise _ _
  · rcases parseRfc3339 raw with er | d
    · exact Rel.dateErr _ _ _
    · rcases d with d | d | d
      all_goals first | exact Rel.raise _ _ | skip
      all_goals
        refine Rel.mark (Rel.bind (B' := False) (Rel.skip _) (fun _ => ?_) (fun h => h.elim) fun _ w e1 a1 h => ?_)
        · repeat' with_reducible first | exact mono_dateErr _ _ | mono
        refine Rel.extract (Rel.ite Iff.rfl (fun _ => Rel.pure _) fun _ => ?_)
        rcases parseRfc3339 (raw ++ rstrip e1) with er | (d | d | d)
        · exact Rel.dateErr _ _ _
        all_goals first | exact Rel.pure _ | exact Rel.raise _ _
  · rcases parseRfc3339 raw with er | (d | d | d)
    · exact Rel.dateErr _ _ _
    all_goals first | exact Rel.pure _ | exact Rel.raise _ _

theorem Rel.parseDigits : Rel t t' a' l False parseDigits parseDigits u e a := by
  rw [parseDigits_tail]
  refine Rel.bind (B' := False) (Rel.skip _) (fun _ => ?_) (fun h => h.elim) fun _ w e1 a1 h => Rel.extract (Rel.digitsTail _)
  exact Mono.bind mono_extract fun _ => mono_digitsTail _

theorem takeWhile_take (q : Chr → Bool) (k : Nat) (s : Str) : (s.take k).takeWhile q = (s.takeWhile q).take k := by
  induction s generalizing k with
  | nil => simp
  | cons c s ih =>
    cases k with
    | zero => simp
    | succ k =>
      by_cases hc : q c = true
      · rw [List.take_succ_cons, List.takeWhile_cons_of_pos hc, List.takeWhile_cons_of_pos hc, List.take_succ_cons, ih]
      · rw [List.take_succ_cons, List.takeWhile_cons_of_neg hc, List.takeWhile_cons_of_neg hc]; rfl

theorem takeWhile_and (p q : Chr → Bool) (s : Str) : s.takeWhile (fun c => p c && q c) = (s.takeWhile p).takeWhile q := by
  induction s with
  | nil => rfl
  | cons c s ih =>
    by_cases hp : p c = true
    · rw [List.takeWhile_cons_of_pos hp]
      by_cases hq : q c = true
      · rw [List.takeWhile_cons_of_pos (by simp [hp, hq]), List.takeWhile_cons_of_pos hq, ih]
      · rw [List.takeWhile_cons_of_neg (by simp [hq]), List.takeWhile_cons_of_neg hq]
    · rw [List.takeWhile_cons_of_neg (by simp [hp]), List.takeWhile_cons_of_neg hp]; rfl

/-- only the text up to the end of the value matters -/
theorem special_word {c : Chr} {r r' : Str} (h : (c :: r).takeWhile (fun c => !isValueEnd c) = (c :: r').takeWhile (fun c => !isValueEnd c)) :
    startsSpecialNumber (c :: r) = startsSpecialNumber (c :: r') := by
  unfold startsSpecialNumber
  dsimp only
  rw [takeWhile_take, takeWhile_and, takeWhile_take, takeWhile_and, h]

/-- a tail at which a value ends -/
structure Ends (t' : Str) : Prop where
  dq : StopsAt (· == 34) t'
  sq : StopsAt (· == 39) t'
  word : StopsAt (fun c => !isValueEnd c) t'


theorem Rel.arrayComment : Rel t t' a' l False (parseCommentTrail false) (parseCommentTrail false) u e a := by
  have htr := mono_parseTrail
  refine Rel.ne (mono_parseCommentTrail _) (fun h => h.elim) fun hu => ?_
  obtain ⟨c, r, rfl⟩ := List.exists_cons_of_ne_nil hu
  unfold parseCommentTrail
  refine Rel.getSt (Rel.ite Iff.rfl (fun _ => Rel.pure _) fun _ => ?_)
  refine Rel.mark (Rel.bind (B' := False) (Rel.skip _) (fun _ => by mono) (fun h => h.elim) fun _ w e1 a1 h => ?_)
  refine Rel.ne (by mono) (fun h => h.elim) fun hu => ?_
  obtain ⟨c2, r2, rfl⟩ := List.exists_cons_of_ne_nil hu
  refine Rel.getSt (Rel.ite Iff.rfl (fun _ => Rel.pure _) fun _ => Rel.ite Iff.rfl (fun _ => ?_) fun _ => Rel.fail _ _)
  refine Rel.extract (Rel.mark (Rel.bind (B' := True) Rel.step (fun _ => by mono) (fun h => h.elim) fun _ w e2 a2 h => ?_))
  refine Rel.bind (B' := False) (Rel.skip _) (fun _ => by mono) (fun h => h.elim) fun _ w e2 a2 h => ?_
  refine Rel.ne (by mono) (fun h => h.elim) fun hu => ?_
  obtain ⟨c3, r3, rfl⟩ := List.exists_cons_of_ne_nil hu
  exact Rel.getSt (Rel.ite Iff.rfl (fun _ => Rel.fail _ _) fun _ => Rel.extract (Rel.mark (Rel.pure _)))

theorem Rel.addWs (c : Cont) (raw : Str) : Rel t t' a' l True (addWs c raw) (addWs c raw) u e a := by
  unfold Tomlkit.addWs
  refine Rel.ite Iff.rfl (fun _ => Rel.pure _) fun _ => ?_
  exact Rel.bind (B' := True) (Rel.lift _) (fun _ => by mono) (fun h => .inl h) fun _ _ _ _ _ => Rel.pure _

theorem Rel.restoring {p p' : P Item} (h : Rel t t' a' l B p p' u e a) : Rel t t' a' l B (restoring p) (restoring p') u e a := by
  intro x s1 h1 hl hlen hB
  unfold Tomlkit.restoring at h1 ⊢
  rcases hm : p ⟨u ++ t, e, a, []⟩ with ⟨b, s2⟩ | ⟨er, s2⟩ <;> rw [hm] at h1 <;> cases h1
  obtain ⟨w, hw, h2⟩ := h x s1 hm hl hlen hB
  refine ⟨w, hw, ?_⟩
  rw [h2]

theorem eats_parseKeyValue (n : Nat) (b : Bool) : Eats (parseKeyValue n b) := by
  rcases n with _ | n
  · intro st x s h; rw [parseKeyValue] at h; cases h
  unfold parseKeyValue
  refine Eats.right mono_mark fun _ => Eats.right (mono_skip _) fun _ => Eats.right mono_extract fun _ => Eats.right mono_parseKeyHere fun _ =>
    Eats.right mono_parseSep fun _ => Eats.left (eats_parseValue _) fun _ => ?_
  have := mono_parseCommentTrail true
  mono

theorem Rel.values : ∀ n,
    (∀ (B : Prop) (m : Nat) (u e : Str) (a : List Key), 3 * u.length + 1 ≤ m →
      (B → Ends t' ∧ ∀ c r, u = c :: r → isDigit c = false) → Rel t t' a' l B (parseValue n) (parseValue m) u e a) ∧
    (∀ (m : Nat) (prev : Bool) (elems : List Item) (u e : Str) (a : List Key), 3 * u.length + 2 ≤ m →
      Rel t t' a' l True (arrayLoop n prev elems) (arrayLoop m prev elems) u e a) ∧
    (∀ (m : Nat) (tc : Option Bool) (c : Cont) (u e : Str) (a : List Key), 3 * u.length + 3 ≤ m →
      Rel t t' a' l True (inlineParse n tc c) (inlineParse m tc c) u e a) ∧
    (∀ (m : Nat) (u e : Str) (a : List Key), 3 * u.length + 2 ≤ m →
      Rel t t' a' l False (parseKeyValue n false) (parseKeyValue m false) u e a) := by
  intro n
  induction n with
  | zero =>
    refine ⟨?_, ?_, ?_, ?_⟩
    · intro B m u e a _ _ x s1 h; rw [parseValue] at h; cases h
    · intro m _ _ u e a _ x s1 h; rw [arrayLoop] at h; cases h
    · intro m _ _ u e a _ x s1 h; rw [inlineParse] at h; cases h
    · intro m u e a _ x s1 h; rw [parseKeyValue] at h; cases h
  | succ n ih =>
    obtain ⟨ihV, ihA, ihI, ihK⟩ := ih
    refine ⟨?_, ?_, ?_, ?_⟩
    · intro B m u e a hm hB
      rcases m with _ | m
      · omega
      refine Rel.ne (mono_parseValue _) (fun _ => eats_parseValue _) fun hu => ?_
      obtain ⟨c, r, rfl⟩ := List.exists_cons_of_ne_nil hu
      simp only [List.length_cons] at hm
      unfold parseValue
      refine Rel.mark (Rel.getSt (Rel.ite Iff.rfl (fun _ => ?_) fun _ => Rel.ite Iff.rfl (fun _ => ?_) fun _ =>
        Rel.ite Iff.rfl (fun _ => Rel.parseBool _ _) fun _ => Rel.ite Iff.rfl (fun _ => Rel.parseBool _ _) fun _ =>
        Rel.ite Iff.rfl (fun _ => ?_) fun _ => Rel.ite Iff.rfl (fun _ => ?_) fun _ => ?_))
      · exact Rel.restoring (Rel.parseString _ fun h => (hB h).1.dq)
      · exact Rel.restoring (Rel.parseString _ fun h => (hB h).1.sq)
      · refine Rel.bind (B' := False) Rel.stepE (fun _ => ?_) (fun _ => .inr fun _ => ?_) fun _ w e1 a1 h => ?_
        · exact Mono.bind (mono_arrayLoop _ _ _) fun _ => mono_pure _
        · exact Eats.left (eats_arrayLoop _ _ _) fun _ => mono_pure _
        have hw : w.length ≤ r.length := by
          have := eats_stepE _ _ _ h rfl
          simp only [List.length_append, List.length_cons] at this
          omega
        exact Rel.bind (B' := True) (ihA m _ _ w _ _ (by omega)) (fun _ => mono_pure _) (fun _ => .inl trivial) fun _ _ _ _ _ => Rel.pure _
      · refine Rel.bind (B' := False) Rel.stepE (fun _ => ?_) (fun _ => .inr fun _ => ?_) fun _ w e1 a1 h => ?_
        · exact Mono.bind (mono_inlineParse _ _ _) fun _ => mono_pure _
        · exact Eats.left (eats_inlineParse _ _ _) fun _ => mono_pure _
        have hw : w.length ≤ r.length := by
          have := eats_stepE _ _ _ h rfl
          simp only [List.length_append, List.length_cons] at this
          omega
        exact Rel.bind (B' := True) (ihI m _ _ w _ _ (by omega)) (fun _ => mono_pure _) (fun _ => .inl trivial) fun _ _ _ _ _ => Rel.pure _
      · -- numbers and dates
        intro x s1 h hl hlen hB'
        have hnum : ∀ raw, Mono (match parseNumber raw {} with | some i => Pure.pure i | none => Tomlkit.fail .invalidNumber) := by
          intro raw; mono
        have hq : ∀ (s1 : St), t.length ≤ s1.rest.length → (B ∨ t.length < s1.rest.length) → s1.rest.length ≤ ((c :: r ++ t).dropWhile fun c => !isValueEnd c).length →
            (c :: r ++ t).takeWhile (fun c => !isValueEnd c) = (c :: r ++ t').takeWhile (fun c => !isValueEnd c) := by
          intro s1 h1 h2 h3
          by_cases hlt : t.length < ((c :: r ++ t).dropWhile fun c => !isValueEnd c).length
          · have := (skip_near hlt).2
            rw [(this t).2, (this t').2]
          · rcases h2 with h2 | h2
            · obtain ⟨g1, g2, g3⟩ := skip_upto (u := c :: r) (t := t) (q := fun c => !isValueEnd c) (by omega)
              rw [g2, (g3 t' (hB h2).1.word).2]
            · omega
        by_cases hsp : startsSpecialNumber (c :: r ++ t) = true
        · have hgo : Rel t t' a' l B (Tomlkit.skip (fun c => !isValueEnd c) >>= fun _ => Tomlkit.extract >>= fun raw => match parseNumber raw {} with | some i => Pure.pure i | none => Tomlkit.fail .invalidNumber)
              (Tomlkit.skip (fun c => !isValueEnd c) >>= fun _ => Tomlkit.extract >>= fun raw => match parseNumber raw {} with | some i => Pure.pure i | none => Tomlkit.fail .invalidNumber) (c :: r) [] a := by
            by_cases hb : B
            · refine Rel.bind (B' := True) (Rel.skipTo (hB hb).1.word) (fun _ => Mono.bind mono_extract hnum) (fun _ => .inl trivial) fun _ w e1 a1 h => Rel.extract ?_
              rcases parseNumber e1 {} with _ | i
              · exact Rel.fail _ _
              · exact Rel.pure _
            · refine Rel.bind (B' := False) (Rel.skip _) (fun _ => Mono.bind mono_extract hnum) (fun h => absurd h hb) fun _ w e1 a1 h => Rel.extract ?_
              rcases parseNumber e1 {} with _ | i
              · exact Rel.fail _ _
              · exact Rel.pure _
          have h : (Tomlkit.skip (fun c => !isValueEnd c) >>= fun _ => Tomlkit.extract >>= fun raw => match parseNumber raw {} with | some i => Pure.pure i | none => Tomlkit.fail .invalidNumber)
            ⟨c :: r ++ t, [], a, []⟩ = .ok x s1 := (congrFun (if_pos hsp) _).symm.trans h
          have hle : s1.rest.length ≤ ((c :: r ++ t).dropWhile fun c => !isValueEnd c).length := by
            obtain ⟨_, s2, g1, g2⟩ := bind_ok h
            have := (Mono.bind mono_extract hnum _ _ _ g2).1.length_le
            cases g1
            exact this
          have hsp' : startsSpecialNumber (c :: r ++ t') = true := by
            rw [← hsp]
            exact (special_word (hq s1 hlen hB' hle)).symm
          obtain ⟨w, g1, g2⟩ := hgo x s1 h hl hlen hB'
          exact ⟨w, g1, (congrFun (if_pos hsp') _).trans g2⟩
        · have h := (congrFun (if_neg hsp) _).symm.trans h
          by_cases hd : isDigit c = true
          · have h := (congrFun (if_pos (c := isDigit (St.mk (c :: r ++ t) [] a []).cur = true) hd) _).symm.trans h
            have hlt : t.length < s1.rest.length := by
              rcases hB' with hB' | hB'
              · rw [(hB hB').2 c r rfl] at hd; cases hd
              · exact hB'
            have hle : s1.rest.length ≤ ((c :: r ++ t).dropWhile fun c => !isValueEnd c).length := by
              rw [parseDigits_tail] at h
              obtain ⟨_, s2, g1, g2⟩ := bind_ok h
              have := (Mono.bind mono_extract mono_digitsTail _ _ _ g2).1.length_le
              cases g1
              exact this
            have hsp' : ¬ startsSpecialNumber (c :: r ++ t') = true := by
              intro hh
              exact hsp ((special_word (hq s1 hlen hB' hle)).trans hh)
            obtain ⟨w, g1, g2⟩ := Rel.parseDigits (t := t) (t' := t') (l := l) (u := c :: r) (e := []) (a := a) x s1 h hl hlen (.inr hlt)
            exact ⟨w, g1, (congrFun (if_neg hsp') _).trans ((congrFun (if_pos (c := isDigit (St.mk (c :: r ++ t') [] a' l).cur = true) hd) _).trans g2)⟩
          · have h := (congrFun (if_neg (c := isDigit (St.mk (c :: r ++ t) [] a []).cur = true) hd) _).symm.trans h
            cases h
    · intro m prev elems u e a hm
      rcases m with _ | m
      · omega
      have hall : Rel t t' a' l True (Tomlkit.skip isWs >>= fun _ => arrayTail n prev elems ((u ++ t).takeWhile isWs))
          (Tomlkit.skip isWs >>= fun _ => arrayTail m prev elems ((u ++ t').takeWhile isWs)) u e a := by
        refine Rel.look (f := arrayTail n prev elems) (f' := arrayTail m prev elems) (fun _ => mono_arrayTail _ _ _ _)
          (fun _ => .inr fun _ => eats_arrayTail _ _ _ _) ?_
        have hlen : (u.takeWhile isWs).length + (u.dropWhile isWs).length = u.length := by
          rw [← List.length_append, List.takeWhile_append_dropWhile]
        generalize u.takeWhile isWs = indent at hlen
        generalize u.dropWhile isWs = w at hlen
        refine Rel.ne (mono_arrayTail _ _ _ _) (fun _ => eats_arrayTail _ _ _ _) fun hu => ?_
        obtain ⟨c, r, rfl⟩ := List.exists_cons_of_ne_nil hu
        simp only [List.length_cons] at hlen
        unfold arrayTail
        refine Rel.getSt (Rel.ite Iff.rfl (fun hi => ?_) fun _ => Rel.ite Iff.rfl (fun hc => ?_) fun _ =>
          Rel.ite Iff.rfl (fun hi => ?_) fun _ => Rel.ite Iff.rfl (fun _ => ?_) fun _ => ?_)
        · have : 1 ≤ indent.length := by
            rcases indent with _ | _
            · cases hi
            · simp
          exact ihA m _ _ (c :: r) _ _ (by simp only [List.length_cons]; omega)
        · refine Rel.bind (B' := False) Rel.arrayComment (fun _ => mono_arrayLoop _ _ _) (fun _ => .inr fun _ => eats_arrayLoop _ _ _) fun b w e1 a1 h => ?_
          have hw : w.length < (c :: r).length := by
            have := parseCommentTrail_at false ⟨c :: r ++ t, e ++ indent, a, []⟩ hc
            unfold Does P.wp at this
            rw [h] at this
            have := this.2.1
            simp only [List.length_append] at this
            omega
          simp only [List.length_cons] at hw
          exact ihA m _ _ w _ _ (by omega)
        · have : 1 ≤ indent.length := by
            rcases indent with _ | _
            · cases hi
            · simp
          exact ihA m _ _ (c :: r) _ _ (by simp only [List.length_cons]; omega)
        · refine Rel.ite Iff.rfl (fun _ => ?_) fun _ => Rel.ite Iff.rfl (fun _ => ?_) fun _ => Rel.fail _ _
          · refine Rel.bind (B' := False) Rel.stepE (fun _ => mono_arrayLoop _ _ _) (fun _ => .inr fun _ => eats_arrayLoop _ _ _) fun _ w e1 a1 h => ?_
            have := eats_stepE _ _ _ h rfl
            simp only [List.length_append, List.length_cons] at this
            exact ihA m _ _ w _ _ (by omega)
          · exact Rel.bind (B' := True) Rel.step (fun _ => mono_pure _) (fun _ => .inl trivial) fun _ _ _ _ _ => Rel.pure _
        · intro x s1 h hl hlen2 hB
          rcases arrayElem_cases h hl with ⟨v, st1, h1, h2, h3⟩ | ⟨r2, h1, rfl, rfl⟩
          · have hl1 := loss_nil (mono_arrayLoop _ _ _ _ _ _ h3).2 hl
            have hlt := eats_arrayLoop _ _ _ _ _ _ h3 hl
            obtain ⟨w, g1, g2⟩ := ihV False m (c :: r) (e ++ indent) a (by simp only [List.length_cons]; omega) (fun h => h.elim) v st1 h1 hl1 (by omega) (.inr (by omega))
            have hw := eats_parseValue _ _ _ _ h1 hl1
            rcases st1 with ⟨r1, e1, a1, l1⟩
            simp only at g1 hl1 hw
            subst g1 hl1
            simp only [List.length_append, List.length_cons] at hw
            obtain ⟨w2, k1, k2⟩ := ihA m true (elems ++ [v]) w e1 a1 (by omega) x s1 h3 hl hlen2 hB
            exact ⟨w2, k1, (arrayElem_ok g2 h2).trans k2⟩
          · rcases m with _ | m
            · omega
            have hcr : c = 93 ∧ r ++ t = r2 := by
              simpa using h1
            obtain ⟨rfl, rfl⟩ := hcr
            exact ⟨r, rfl, arrayElem_end m x (r ++ t') _ _ _⟩
      intro x s1 h
      rw [arrayLoop_tail] at h ⊢
      exact hall x s1 h
    · intro m tc c u e a hm
      rcases m with _ | m
      · omega
      have hall : Rel t t' a' l True (Tomlkit.skip isSpaces >>= fun _ => Tomlkit.addWs c ((u ++ t).takeWhile isSpaces) >>= inlineTail n tc)
          (Tomlkit.skip isSpaces >>= fun _ => Tomlkit.addWs c ((u ++ t').takeWhile isSpaces) >>= inlineTail m tc) u e a := by
        refine Rel.look (f := fun raw => Tomlkit.addWs c raw >>= inlineTail n tc) (f' := fun raw => Tomlkit.addWs c raw >>= inlineTail m tc)
          (fun _ => Mono.bind (mono_addWs _ _) fun _ => mono_inlineTail _ _ _)
          (fun _ => .inr fun _ => Eats.right (mono_addWs _ _) fun _ => eats_inlineTail _ _ _) ?_
        have hlen : (u.dropWhile isSpaces).length ≤ u.length := (List.dropWhile_suffix _).length_le
        generalize u.takeWhile isSpaces = raw
        generalize u.dropWhile isSpaces = w at hlen
        refine Rel.bind (B' := True) (Rel.addWs _ _) (fun _ => mono_inlineTail _ _ _) (fun _ => .inl trivial) fun c2 w2 e2 a2 h => ?_
        have hw2 := (mono_addWs _ _ _ _ _ h).1.length_le
        simp only [List.length_append] at hw2
        have hw2 : w2.length ≤ u.length := by omega
        clear h hlen
        refine Rel.ne (mono_inlineTail _ _ _) (fun _ => eats_inlineTail _ _ _) fun hu => ?_
        obtain ⟨d, r, rfl⟩ := List.exists_cons_of_ne_nil hu
        unfold inlineTail
        refine Rel.getSt (Rel.ite Iff.rfl (fun _ => ?_) fun _ => Rel.ite Iff.rfl (fun _ => Rel.fail _ _) fun _ =>
          Rel.ite Iff.rfl (fun _ => Rel.fail _ _) fun _ => ?_)
        · exact Rel.bind (B' := True) Rel.step (fun _ => mono_pure _) (fun _ => .inl trivial) fun _ _ _ _ _ => Rel.pure _
        have hfin : ∀ c, Eats (Tomlkit.getSt >>= fun st => if st.cur = 44 then Tomlkit.stepE >>= fun _ => inlineParse n (some true) c else inlineParse n (some false) c) := by
          intro c
          exact Eats.right mono_getSt fun _ => Eats.ite (Eats.right mono_stepE fun _ => eats_inlineParse _ _ _) (eats_inlineParse _ _ _)
        refine Rel.bind (B' := False) (ihK m (d :: r) _ _ (by omega)) (fun _ => ?_) (fun _ => .inr fun b => ?_) fun kv w3 e3 a3 h => ?_
        · repeat' with_reducible first | exact mono_parseKeyValue _ _ | exact mono_addWs _ _ | exact mono_inlineParse _ _ _ | mono
        · refine Eats.right (mono_lift _) fun r => Eats.right (mono_note _ _) fun _ => Eats.right mono_getSt fun _ =>
            Eats.right (mono_skip _) fun _ => Eats.right (mono_addWs _ _) fun _ => Eats.right mono_getSt fun _ =>
            Eats.right (mono_note _ _) fun _ => Eats.ite (Eats.right (mono_note _ _) fun _ => Eats.right mono_stepE fun _ => eats_inlineParse _ _ _) (eats_inlineParse _ _ _)
        have hw3 : w3.length < (d :: r).length := by
          have := eats_parseKeyValue _ _ _ _ _ h rfl
          simp only [List.length_append] at this
          omega
        have hmono : ∀ (kv : Key × Item) (c : Cont) (raw : Str), Mono (do
            let st ← Tomlkit.getSt
            Tomlkit.note (!kv.2.trivia.commentWs.isEmpty) .dateWs
            if st.cur = 44 then
              Tomlkit.note (!raw.isEmpty) .inlineWs
              Tomlkit.stepE
              inlineParse n (some true) c
            else inlineParse n (some false) c) := by
          intro kv c raw
          repeat' with_reducible first | exact mono_inlineParse _ _ _ | mono
        have heats : ∀ (kv : Key × Item) (c : Cont) (raw : Str), Eats (do
            let st ← Tomlkit.getSt
            Tomlkit.note (!kv.2.trivia.commentWs.isEmpty) .dateWs
            if st.cur = 44 then
              Tomlkit.note (!raw.isEmpty) .inlineWs
              Tomlkit.stepE
              inlineParse n (some true) c
            else inlineParse n (some false) c) := by
          intro kv c raw
          exact Eats.right mono_getSt fun _ => Eats.right (mono_note _ _) fun _ => Eats.ite (Eats.right (mono_note _ _) fun _ => Eats.right mono_stepE fun _ => eats_inlineParse _ _ _) (eats_inlineParse _ _ _)
        refine Rel.bind (B' := True) (Rel.lift _) (fun _ => ?_) (fun _ => .inl trivial) fun rr w4 e4 a4 h4 => ?_
        · repeat' with_reducible first | exact mono_addWs _ _ | exact mono_inlineParse _ _ _ | mono
        have hw4 := (mono_lift _ _ _ _ h4).1.length_le
        simp only [List.length_append] at hw4
        refine Rel.bind (B' := True) (Rel.note _ _) (fun _ => ?_) (fun _ => .inl trivial) fun _ w5 e5 a5 h5 => ?_
        · repeat' with_reducible first | exact mono_addWs _ _ | exact mono_inlineParse _ _ _ | mono
        have hw5 := (mono_note _ _ _ _ _ h5).1.length_le
        simp only [List.length_append] at hw5
        refine Rel.getSt (Rel.look (q := isSpaces) (f := fun raw => Tomlkit.addWs rr.1 raw >>= fun c => do
            let st ← Tomlkit.getSt
            Tomlkit.note (!kv.2.trivia.commentWs.isEmpty) .dateWs
            if st.cur = 44 then
              Tomlkit.note (!raw.isEmpty) .inlineWs
              Tomlkit.stepE
              inlineParse n (some true) c
            else inlineParse n (some false) c) (f' := fun raw => Tomlkit.addWs rr.1 raw >>= fun c => do
            let st ← Tomlkit.getSt
            Tomlkit.note (!kv.2.trivia.commentWs.isEmpty) .dateWs
            if st.cur = 44 then
              Tomlkit.note (!raw.isEmpty) .inlineWs
              Tomlkit.stepE
              inlineParse m (some true) c
            else inlineParse m (some false) c) (fun _ => Mono.bind (mono_addWs _ _) fun _ => hmono _ _ _)
              (fun _ => .inr fun _ => Eats.right (mono_addWs _ _) fun _ => heats _ _ _) ?_)
        have hlen : (w5.dropWhile isSpaces).length ≤ w5.length := (List.dropWhile_suffix _).length_le
        generalize w5.takeWhile isSpaces = raw2
        generalize w5.dropWhile isSpaces = w6 at hlen
        refine Rel.bind (B' := True) (Rel.addWs _ _) (fun _ => hmono _ _ _) (fun _ => .inl trivial) fun c7 w7 e7 a7 h7 => ?_
        have hw7 := (mono_addWs _ _ _ _ _ h7).1.length_le
        simp only [List.length_append] at hw7
        refine Rel.ne (hmono _ _ _) (fun _ => heats _ _ _) fun hu => ?_
        obtain ⟨c8, r8, rfl⟩ := List.exists_cons_of_ne_nil hu
        simp only [List.length_cons] at hw7 hw3 hw2
        refine Rel.getSt (Rel.bind (B' := True) (Rel.note _ _) (fun _ => ?_) (fun _ => .inl trivial) fun _ w9 e9 a9 h9 => ?_)
        · repeat' with_reducible first | exact mono_inlineParse _ _ _ | mono
        have hw9 := (mono_note _ _ _ _ _ h9).1.length_le
        simp only [List.length_append, List.length_cons] at hw9
        refine Rel.ite Iff.rfl (fun _ => ?_) fun _ => ihI m _ _ w9 _ _ (by omega)
        refine Rel.bind (B' := True) (Rel.note _ _) (fun _ => ?_) (fun _ => .inl trivial) fun _ w10 e10 a10 h10 => ?_
        · repeat' with_reducible first | exact mono_inlineParse _ _ _ | mono
        have hw10 := (mono_note _ _ _ _ _ h10).1.length_le
        simp only [List.length_append] at hw10
        refine Rel.bind (B' := False) Rel.stepE (fun _ => mono_inlineParse _ _ _) (fun _ => .inr fun _ => eats_inlineParse _ _ _) fun _ w11 e11 a11 h11 => ?_
        have hw11 := (mono_stepE _ _ _ h11).1.length_le
        simp only [List.length_append] at hw11
        exact ihI m _ _ w11 _ _ (by omega)
      intro x s1 h
      rw [inlineParse_tail] at h ⊢
      exact hall x s1 h
    · intro m u e a hm
      rcases m with _ | m
      · omega
      unfold parseKeyValue
      have hv := mono_parseValue n
      have hk := mono_parseKeyHere
      have hs := mono_parseSep
      have hc := mono_parseCommentTrail true
      refine Rel.mark (Rel.bind (B' := False) (Rel.skip _) (fun _ => ?_) (fun h => h.elim) fun _ w1 e1 a1 h1 => ?_)
      · repeat' with_reducible first | exact mono_note _ _ | mono
      have hw1 := (mono_skip _ _ _ _ h1).1.length_le
      simp only [List.length_append] at hw1
      refine Rel.extract (Rel.bind (B' := False) Rel.parseKeyHere (fun _ => ?_) (fun h => h.elim) fun key w2 e2 a2 h2 => ?_)
      · repeat' with_reducible first | exact mono_note _ _ | mono
      have hw2 := (mono_parseKeyHere _ _ _ h2).1.length_le
      simp only [List.length_append] at hw2
      refine Rel.bind (B' := False) Rel.parseSep (fun _ => ?_) (fun h => h.elim) fun sep w3 e3 a3 h3 => ?_
      · repeat' with_reducible first | exact mono_note _ _ | mono
      have hw3 := (mono_parseSep _ _ _ h3).1.length_le
      simp only [List.length_append] at hw3
      refine Rel.bind (B' := False) (ihV False m w3 _ _ (by omega) (fun h => h.elim)) (fun _ => ?_) (fun h => h.elim) fun v w4 e4 a4 h4 => ?_
      · repeat' with_reducible first | exact mono_note _ _ | mono
      exact Rel.pure _
end
end Tomlkit
