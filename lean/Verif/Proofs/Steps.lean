import Verif.Proofs.Leaves
/-!
# Contracts of the steps that read one token, continued
-/
namespace Tomlkit

section
variable {st s : St} {j : Nat} {E : Err → St → Prop}

theorem Adv.skip' (h : Adv st s j) {p : Chr → Bool} {Q : Unit → St → Prop}
    (hq : ∀ s', Adv st s' j → s'.rest = s.rest.dropWhile p → s'.ext = s.ext ++ s.rest.takeWhile p → Q () s') :
    (Tomlkit.skip p).wp Q E s := wp_skip (hq _ (h.skip p) rfl rfl)

theorem Adv.mark' (h : Adv st s j) {Q : Unit → St → Prop}
    (hq : ∀ s', Adv st s' j → s'.rest = s.rest → s'.ext = [] → Q () s') :
    mark.wp Q E s := wp_mark (hq _ h.same rfl rfl)

theorem Adv.stepN' (h : Adv st s j) {n : Nat} {Q : Unit → St → Prop}
    (hq : ∀ s', Adv st s' (j + min n s.rest.length) → s'.rest = s.rest.drop n → Q () s') :
    (stepN n).wp Q E s := by
  refine wp_stepN (hq _ ?_ rfl)
  exact ⟨(List.drop_suffix n _).trans h.suf, by have := h.len; simp; omega, h.aot⟩
end

theorem parseTrail_does (st : St) : Does parseTrail 0 (fun _ => True) st := by
  have h := Adv.refl st
  unfold Does parseTrail
  refine wp_bind (h.skip' fun s h _ _ => ?_)
  refine wp_bind (wp_getSt ?_)
  have hmain : ∀ s, Adv st s 0 → P.wp (do
      let st ← getSt
      if st.cur = 10 then step
      extract) (Ctr 0 (fun _ => True) st) (CtrE st) s := by
    intro s h
    refine wp_bind (wp_getSt ?_)
    refine wp_ite (fun _ => ?_) (fun _ => ?_)
    · refine wp_bind (h.step fun s h _ => ?_)
      exact wp_extract ⟨h.suf, (h.weaken (Nat.zero_le _)).len, h.aot, trivial⟩
    · exact wp_extract ⟨h.suf, h.len, h.aot, trivial⟩
  refine wp_ite (fun _ => ?_) (fun _ => ?_)
  · refine wp_bind (h.step fun s h _ => ?_)
    exact hmain s (h.weaken (Nat.zero_le _))
  · exact hmain s h

theorem Adv.ext' {st s s' : St} {j : Nat} (h : Adv st s j) (hr : s'.rest = s.rest) (ha : s'.aot = s.aot) : Adv st s' j :=
  ⟨hr ▸ h.suf, hr ▸ h.len, ha.trans h.aot⟩

theorem dropWhile_shorter {p : Chr → Bool} {l : Str} {c : Chr} {r : Str} (hl : l = c :: r) (h : p c = true) :
    (l.dropWhile p).length + 1 ≤ l.length := by
  subst hl
  rw [List.dropWhile_cons_of_pos h]
  have := (List.dropWhile_suffix p (l := r)).length_le
  simp; omega

theorem cur_cons {s : St} {c : Chr} (h : s.cur = c) (hc : c ≠ 0) : ∃ r, s.rest = c :: r := by
  unfold St.cur at h
  rcases hs : s.rest with _ | ⟨d, r⟩ <;> rw [hs] at h
  · exact absurd h.symm hc
  · exact ⟨r, by rw [← h]⟩

theorem cur_pos {s : St} {p : Chr → Bool} (h : p s.cur = true) (hp : p 0 = false) : ∃ r, s.rest = s.cur :: r := by
  refine cur_cons rfl ?_
  intro h0; rw [h0, hp] at h; cases h

/-- skipping over characters of a kind to which the current one belongs -/
theorem Adv.skip1 {st s : St} {j : Nat} {E} (h : Adv st s j) {p : Chr → Bool} (hp : p s.cur = true) (h0 : p 0 = false)
    {Q : Unit → St → Prop}
    (hq : ∀ s', Adv st s' (j + 1) → s'.rest = s.rest.dropWhile p → s'.ext = s.ext ++ s.rest.takeWhile p → Q () s') :
    (Tomlkit.skip p).wp Q E s := by
  refine wp_skip (hq _ ?_ rfl rfl)
  obtain ⟨r, hr⟩ := cur_pos hp h0
  have := dropWhile_shorter hr hp
  refine ⟨(List.dropWhile_suffix p).trans h.suf, ?_, h.aot⟩
  have := h.len
  simp only
  omega

theorem Adv.step1 {st s : St} {j : Nat} {E} (h : Adv st s j) (hp : s.cur ≠ 0) {Q : Unit → St → Prop}
    (hq : ∀ s', Adv st s' (j + 1) → s'.rest = s.rest.drop 1 → Q () s') : Tomlkit.step.wp Q E s := by
  refine h.step fun s' h' hr => hq s' ?_ hr
  have := cur_ne_zero_length rfl hp
  rwa [Nat.min_eq_left this] at h'

theorem parseCommentTrail_does (t : Bool) (st : St) : Does (parseCommentTrail t) 0 (fun _ => True) st := by
  have h := Adv.refl st
  have htrail : ∀ (cws comment : Str) (s : St), Adv st s 0 → P.wp (do
      let tr ← if t then parseTrail else pure []
      return (cws, comment, tr)) (Ctr 0 (fun _ => True) st) (CtrE st) s := by
    intro cws comment s h
    cases t
    · exact wp_bind (wp_pure (h.ret (Nat.zero_le _) trivial))
    · exact wp_bind (h.call (parseTrail_does s) fun a s' h' _ => h'.ret (Nat.zero_le _) trivial)
  unfold Does parseCommentTrail
  refine wp_bind (wp_getSt (wp_ite (fun _ => h.ret (Nat.zero_le _) trivial) (fun _ => ?_)))
  refine wp_bind (h.mark' fun s h hr he => ?_)
  refine wp_bind (h.skip' fun s h _ _ => ?_)
  refine wp_bind (wp_getSt (wp_ite (fun _ => htrail _ _ _ h) fun _ => wp_ite (fun _ => ?_) (fun _ => h.fail)))
  refine wp_bind (wp_extract ?_)
  refine wp_bind (h.mark' fun s h hr he => ?_)
  refine wp_bind (h.step fun s h _ => ?_)
  refine wp_bind (h.skip' fun s h _ _ => ?_)
  refine wp_bind (wp_getSt (wp_ite (fun _ => h.fail) fun _ => ?_))
  refine wp_bind (wp_extract ?_)
  refine wp_bind (h.mark' fun s h hr he => ?_)
  exact htrail _ _ _ (h.weaken (Nat.zero_le _))

/-- at a `#` the comment is consumed -/
theorem parseCommentTrail_at (t : Bool) (st : St) (hc : st.cur = 35) : Does (parseCommentTrail t) 1 (fun _ => True) st := by
  have h := Adv.refl st
  have htrail : ∀ (cws comment : Str) (s : St), Adv st s 1 → P.wp (do
      let tr ← if t then parseTrail else pure []
      return (cws, comment, tr)) (Ctr 1 (fun _ => True) st) (CtrE st) s := by
    intro cws comment s h
    cases t
    · exact wp_bind (wp_pure (h.ret (Nat.le_refl _) trivial))
    · exact wp_bind (h.call (parseTrail_does s) fun a s' h' _ => h'.ret (Nat.le_refl _) trivial)
  obtain ⟨r, hr⟩ := cur_cons hc (by decide)
  unfold Does parseCommentTrail
  refine wp_bind (wp_getSt (wp_ite (fun h => ?_) (fun _ => ?_)))
  · simp [St.atEnd, hr] at h
  refine wp_bind (h.mark' fun s h hr' he => ?_)
  refine wp_bind (h.skip' fun s h hr2 _ => ?_)
  rw [hr', hr] at hr2
  have hr3 : s.rest = 35 :: r := by rw [hr2]; rfl
  have hc : s.cur = 35 := by unfold St.cur; rw [hr3]
  refine wp_bind (wp_getSt (wp_ite (fun h => ?_) fun _ => wp_ite (fun _ => ?_) (fun h => absurd hc h)))
  · simp [St.atEnd, hr3, hc] at h
  refine wp_bind (wp_extract ?_)
  refine wp_bind (h.mark' fun s' h hr he => ?_)
  refine wp_bind (h.step fun s' h _ => ?_)
  refine wp_bind (h.skip' fun s' h _ _ => ?_)
  refine wp_bind (wp_getSt (wp_ite (fun _ => h.fail) fun _ => ?_))
  refine wp_bind (wp_extract ?_)
  refine wp_bind (h.mark' fun s' h _ he => ?_)
  refine htrail _ _ _ (h.weaken ?_)
  rw [hr, hr3]; simp

theorem parseEscapedChar_does (m : Bool) (st : St) : Does (parseEscapedChar m) 1 (fun _ => True) st := by
  have h := Adv.refl st
  unfold Does parseEscapedChar
  refine wp_bind (wp_getSt (wp_ite (fun hc => ?_) (fun _ => ?_)))
  · simp only [Bool.and_eq_true] at hc
    refine wp_bind (h.skip1 hc.2 (by decide) fun s h _ _ => ?_)
    exact wp_bind (wp_getSt (wp_ite (fun _ => h.fail) fun _ => wp_ite (fun _ => h.fail) fun _ =>
      h.ret (by omega) trivial))
  · split
    · exact wp_bind (h.stepE fun s h _ => h.ret (by omega) trivial)
    · refine wp_ite (fun hc => ?_) (fun _ => h.fail)
      dsimp only
      split
      · refine wp_bind (h.stepN' fun s h _ => h.ret ?_ trivial)
        have : 1 ≤ st.rest.length := by
          refine cur_ne_zero_length rfl ?_
          intro h0; rw [h0] at hc; revert hc; decide
        omega
      · exact h.fail

/-- a string item as the parser makes it -/
def IsStr (v : Item) : Prop := ∃ ty x o, v = .str ty x o {}

theorem unit_ne_zero (d : StrType) : d.unit ≠ 0 := by cases d <;> decide

theorem strLoop_does (d : StrType) : ∀ (n : Nat) (v : Str) (esc : Bool) (st : St), st.rest.length < n →
    Does (strLoop d n v esc) 0 IsStr st := by
  intro n
  induction n with
  | zero => intro v esc st h; omega
  | succ n ih =>
    intro v esc st hn
    have h := Adv.refl st
    unfold Does strLoop
    refine wp_bind (wp_getSt (wp_ite (fun _ => h.fail) fun _ => wp_ite (fun hc => ?_) (fun _ => wp_ite (fun _ => ?_)
      fun _ => wp_ite (fun _ => ?_) fun _ => ?_)))
    · simp only [Bool.and_eq_true, decide_eq_true_eq] at hc
      refine wp_ite (fun _ => ?_) (fun _ => ?_)
      · refine wp_bind (wp_extract ?_)
        refine wp_bind (h.skip1 (by simpa using hc.2) (by simpa using (unit_ne_zero d).symm) fun s h _ _ => ?_)
        refine wp_ite (fun _ => ?_) (fun _ => wp_ite (fun _ => h.ret (Nat.zero_le _) ⟨_, _, _, rfl⟩) fun _ =>
          wp_ite (fun _ => h.fail) fun _ => h.ret (Nat.zero_le _) ⟨_, _, _, rfl⟩)
        exact h.last (ih _ _ _ (by have := h.len; omega)) (Nat.zero_le _) fun _ h => h
      · refine wp_bind (wp_extract (wp_bind (h.step fun s h _ => h.ret (Nat.zero_le _) ⟨_, _, _, rfl⟩)))
    · refine wp_bind (h.call (parseEscapedChar_does _ _) fun a s h _ => ?_)
      exact h.last (ih _ _ _ (by have := h.len; omega)) (Nat.zero_le _) fun _ h => h
    · refine wp_bind (h.stepE fun s h _ => ?_)
      exact h.last (ih _ _ _ (by have := h.len; omega)) (Nat.zero_le _) fun _ h => h
    · refine wp_bind (h.stepE fun s h _ => ?_)
      exact h.last (ih _ _ _ (by have := h.len; omega)) (Nat.zero_le _) fun _ h => h

theorem strBody_does (d : StrType) (st : St) : Does (strBody d) 0 IsStr st := by
  have h := Adv.refl st
  have hloop : ∀ s, Adv st s 0 → P.wp (do
      let st ← getSt
      strLoop d (st.rest.length + 1) [] false) (Ctr 0 IsStr st) (CtrE st) s := fun s h =>
    wp_bind (wp_getSt (h.last (strLoop_does d _ _ _ s (Nat.lt_succ_self _)) (Nat.zero_le _) fun _ h => h))
  unfold Does strBody
  refine wp_bind (h.mark' fun s h _ _ => ?_)
  unfold skipFirstNl
  refine wp_bind (wp_ite (fun _ => ?_) fun _ => wp_pure (hloop _ h))
  refine wp_bind (wp_getSt (wp_ite (fun _ => ?_) fun _ => wp_ite (fun _ => ?_) fun _ => wp_pure (hloop _ h)))
  · exact h.stepE fun s h _ => hloop _ (h.weaken (Nat.zero_le _))
  · refine wp_bind (h.stepN' fun s h _ => ?_)
    exact wp_bind (wp_getSt (wp_ite (fun _ => h.fail) fun _ => wp_pure (hloop _ (h.weaken (Nat.zero_le _)))))

theorem parseString_does (d : StrType) (st : St) : Does (parseString d) 1 IsStr st := by
  have h := Adv.refl st
  unfold Does parseString
  refine wp_bind (wp_getSt (wp_ite (fun _ => h.fail) fun _ => ?_))
  refine wp_bind (h.stepE fun s h _ => ?_)
  refine wp_bind (wp_getSt (wp_ite (fun _ => ?_) fun _ => ?_))
  · refine wp_bind (h.step fun s h _ => ?_)
    refine wp_bind (wp_getSt (wp_ite (fun _ => h.ret (by omega) ⟨_, _, _, rfl⟩) fun _ => ?_))
    refine wp_bind (h.stepE fun s h _ => ?_)
    exact h.last (strBody_does _ _) (by omega) fun _ h => h
  · exact h.last (strBody_does _ _) (by omega) fun _ h => h

theorem concat_parts (k : SKey) (b : Key) : ((Key.single k).concat b).parts ≠ [] := by
  simp [Key.concat, Key.parts]

theorem parseKey_does : ∀ (n : Nat) (st : St), st.rest.length < n →
    Does (parseKey n) 0 (fun k => k.parts ≠ []) st := by
  intro n
  induction n with
  | zero => intro st h; omega
  | succ n ih =>
    intro st hn
    have h := Adv.refl st
    have hrest : ∀ (key : SKey) (s : St), Adv st s 0 → P.wp (do
        let st ← getSt
        if st.cur = 46 then
          step
          let k ← parseKey n
          return (Key.single key).concat k
        else return .single key) (Ctr 0 (fun k => k.parts ≠ []) st) (CtrE st) s := by
      intro key s h
      refine wp_bind (wp_getSt (wp_ite (fun hc => ?_) fun _ => h.ret (Nat.zero_le _) (by simp [Key.parts])))
      refine wp_bind (h.step1 (by rw [hc]; decide) fun s h _ => ?_)
      refine wp_bind (h.call (ih s (by have := h.len; omega)) fun k s h _ => ?_)
      exact h.ret (Nat.zero_le _) (concat_parts _ _)
    unfold Does parseKey
    refine wp_bind (h.mark' fun s h _ _ => ?_)
    refine wp_bind (h.skip' fun s h _ _ => ?_)
    refine wp_bind (wp_getSt (wp_ite (fun hc => ?_) fun _ => ?_))
    · refine wp_bind (wp_extract ?_)
      refine wp_bind (h.call (parseString_does _ _) fun v s h hv => ?_)
      obtain ⟨ty, x, o, rfl⟩ := hv
      refine wp_ite (fun _ => h.fail) fun _ => ?_
      refine wp_bind (h.mark' fun s h _ _ => ?_)
      refine wp_bind (h.skip' fun s h _ _ => ?_)
      refine wp_bind (wp_extract ?_)
      exact hrest _ _ (h.weaken (Nat.zero_le _))
    · refine wp_bind (h.skip' fun s h _ _ => ?_)
      refine wp_bind (wp_extract (wp_ite (fun _ => h.fail) fun _ => wp_ite (fun _ => h.fail) fun _ => ?_))
      exact hrest _ _ (h.weaken (Nat.zero_le _))

theorem parseKeyHere_does (st : St) : Does parseKeyHere 0 (fun k => k.parts ≠ []) st :=
  wp_bind (wp_getSt (parseKey_does _ st (Nat.lt_succ_self _)))

theorem headerKey_does (st : St) : Does headerKey 0 (fun k => k.parts ≠ []) st := by
  have h := parseKeyHere_does st
  unfold Does P.wp headerKey at *
  rcases hk : parseKeyHere st with ⟨a, s⟩ | ⟨e, s⟩ <;> rw [hk] at h
  · exact h
  · cases e
    case parse k r =>
      obtain ⟨h1, h2, h3⟩ := h
      have h4 : ∀ k', OkErr st.rest (.parse k' r) := by
        intro k'
        rcases h3 with ⟨_, _, hh, hl⟩ | ⟨hh, _⟩ | hh | hh | hh | hh <;> cases hh
        exact Or.inl ⟨_, _, rfl, hl⟩
      clear h3
      cases k <;> exact ⟨h1, h2, h4 _⟩
    all_goals exact h

theorem parseSep_does (st : St) : Does parseSep 1 (fun _ => True) st := by
  have h := Adv.refl st
  unfold Does parseSep
  refine wp_bind (h.mark' fun s h hr _ => ?_)
  refine wp_bind (wp_getSt (wp_ite (fun _ => ?_) fun hc => wp_ite (fun _ => ?_) fun _ => ?_))
  · exact wp_bind (h.stepN' fun s h _ => h.fail)
  · exact wp_bind (h.stepN' fun s h _ => h.fail)
  · refine wp_bind (h.stepN' fun s' h _ => wp_extract ⟨h.suf, (h.weaken ?_).len, h.aot, trivial⟩)
    simp only [Bool.not_eq_true', Bool.not_eq_false, List.contains_iff_mem] at hc
    have : 0 < (s.rest.takeWhile isKvSep).length := List.length_pos_of_mem hc
    have := (List.takeWhile_prefix isKvSep (l := s.rest)).length_le
    omega

theorem parseBool_does (w : Str) (v : Bool) (st : St) (hw : w ≠ []) : Does (parseBool w v) 1 (fun i => i = .bool v {}) st := by
  unfold Does P.wp parseBool
  split
  · rename_i a s hs
    split at hs
    · rename_i hp
      cases hs
      have := (List.isPrefixOf_iff_prefix.1 hp).length_le
      have : 0 < w.length := List.length_pos_iff.2 hw
      refine ⟨List.drop_suffix _ _, ?_, rfl, rfl⟩
      simp; omega
    · cases hs
  · rename_i e s hs
    split at hs
    · cases hs
    · cases hs
      exact ⟨List.suffix_refl _, rfl, Or.inl ⟨_, _, rfl, Nat.sub_le _ _⟩⟩

theorem parseNumber_plain {raw : Str} {i : Item} (h : parseNumber raw {} = some i) :
    (∃ v o, i = .integer v {} o) ∨ ∃ v o, i = .float v {} o := by
  unfold parseNumber at h
  dsimp only at h
  split at h
  · cases h
  · split at h
    · cases h; exact Or.inl ⟨_, _, rfl⟩
    · split at h
      · cases h; exact Or.inr ⟨_, _, rfl⟩
      · cases h

/-- a value without parts -/
def Plain (v : Item) : Prop := ∀ W, v.Good W


theorem dateErr_does {st s : St} {j : Nat} (h : Adv st s j) (k : PKind) (e : PyErr) {Q : Item → St → Prop}
    (he : e = .overflowError → LongNumber st.rest) :
    (dateErr k e : P Item).wp Q (CtrE st) s := by
  cases e
  · exact h.fail
  · exact ⟨h.suf, h.aot, Or.inr (Or.inl ⟨rfl, he rfl⟩)⟩

theorem digitsNat_lt (s : Str) (h : ∀ c ∈ s, isDigit c = true) : digitsNat s < 10 ^ s.length := by
  unfold digitsNat
  have : ∀ (s : Str) (a n : Nat), (∀ c ∈ s, isDigit c = true) → a < 10 ^ n →
      s.foldl (fun a c => a * 10 + (c - 48)) a < 10 ^ (n + s.length) := by
    intro s
    induction s with
    | nil => intro a n _ h; simpa using h
    | cons c r ih =>
      intro a n hc ha
      have h1 := hc c (List.mem_cons_self ..)
      simp only [isDigit, Bool.and_eq_true, decide_eq_true_eq] at h1
      have := ih (a * 10 + (c - 48)) (n + 1) (fun x hx => hc x (List.mem_cons_of_mem _ hx)) (by
        rw [Nat.pow_succ]; omega)
      simpa [Nat.add_comm, Nat.add_left_comm, Nat.add_assoc] using this
  simpa using this s 0 0 h (by simp)

theorem mkDate_overflow {y m d : Nat} {e : PyErr} (h : mkDate y m d = .error e) (he : e = .overflowError) :
    2147483647 < y := by
  subst he
  unfold mkDate at h
  split at h
  · assumption
  · split at h <;> cases h

theorem strictDate_digits {s y m d r : Str} (h : strictDate s = some ((y, m, d), r)) :
    ∃ q, s = y ++ q ∧ ∀ c ∈ y, isDigit c = true := by
  unfold strictDate at h
  simp only [Option.bind_eq_bind, Option.bind_eq_some_iff] at h
  obtain ⟨⟨y', r1⟩, h1, r2, h2, ⟨m', r3⟩, h3, r4, h4, ⟨d', r5⟩, h5, h6⟩ := h
  cases h6
  exact ⟨r1, (digits1_some h1).1, (digits1_some h1).2.2⟩

theorem long_of_date {s y m d r : Str} (h : strictDate s = some ((y, m, d), r)) {m' d' : Nat}
    (he : mkDate (digitsNat y) m' d' = .error .overflowError) : LongNumber s := by
  obtain ⟨q, rfl, hy⟩ := strictDate_digits h
  have h1 := mkDate_overflow he rfl
  have h2 := digitsNat_lt y hy
  refine ⟨[], y, q, rfl, ?_, hy⟩
  by_cases hl : 10 ≤ y.length
  · exact hl
  · exfalso
    have : 10 ^ y.length ≤ 10 ^ 9 := Nat.pow_le_pow_right (by decide) (by omega)
    have : (10 : Nat) ^ 9 = 1000000000 := by decide
    omega

theorem rfc_overflow {s : Str} (h : parseRfc3339 s = .error .overflowError) : LongNumber s := by
  unfold parseRfc3339 at h
  split at h
  · rename_i y m d hh mi se f z hm
    unfold matchDateTime at hm
    simp only [Option.bind_eq_bind, Option.bind_eq_some_iff] at hm
    obtain ⟨⟨dd, r1⟩, h1, r2, h2, ⟨tt, r3⟩, h3, h4⟩ := hm
    split at h4 <;> cases h4
    split at h
    · rename_i e he
      cases h
      exact long_of_date h1 he
    · split at h
      · rename_i he
        cases h
        unfold mkTime at he
        split at he <;> cases he
      · cases h
  · split at h
    · rename_i y m d hm
      unfold matchDate at hm
      split at hm
      · rename_i h1
        split at hm <;> cases hm
        split at h
        · rename_i e he
          cases h
          exact long_of_date h1 he
        · cases h
      · cases hm
    · split at h
      · split at h
        · rename_i he
          cases h
          unfold mkTime at he
          split at he <;> cases he
        · cases h
      · cases h

theorem rstrip_prefix (s : Str) : rstrip s <+: s := by
  unfold rstrip
  have := List.dropWhile_suffix isUniSpace (l := s.reverse)
  rw [← List.reverse_prefix, List.reverse_reverse] at this
  exact this

theorem rstrip_drop {s : Str} : ∀ c ∈ s.drop (rstrip s).length, isUniSpace c = true := by
  have h : s = rstrip s ++ (s.reverse.takeWhile isUniSpace).reverse := by
    unfold rstrip
    rw [← List.reverse_append, List.takeWhile_append_dropWhile, List.reverse_reverse]
  have : s.drop (rstrip s).length = (s.reverse.takeWhile isUniSpace).reverse := by
    have h2 : ∀ a b : Str, s = a ++ b → s.drop a.length = b := by
      intro a b hab; rw [hab]; simp
    exact h2 _ _ h
  rw [this]
  intro c hc
  rw [List.mem_reverse] at hc
  have h3 := List.all_takeWhile (l := s.reverse) (p := isUniSpace)
  rw [List.all_eq_true] at h3
  exact h3 c hc

theorem rstrip_not_nl {s : Str} (h : ∀ c ∈ s, c ≠ 10) : rstrip s ≠ [10] := by
  intro hr
  have : (10 : Nat) ∈ rstrip s := by rw [hr]; simp
  unfold rstrip at this
  rw [List.mem_reverse] at this
  have := (List.dropWhile_suffix _).subset this
  rw [List.mem_reverse] at this
  exact h _ this rfl

theorem takeWhile_ne {p : Chr → Bool} {l : Str} {x : Chr} (hx : p x = false) : ∀ c ∈ l.takeWhile p, c ≠ x := by
  intro c hc h
  have := List.all_takeWhile (l := l) (p := p)
  rw [List.all_eq_true] at this
  have := this c hc
  rw [h, hx] at this
  cases this

theorem parseDigits_does (st : St) (hc : isDigit st.cur = true) (hext : st.ext = []) : Does parseDigits 1 Plain st := by
  have h := Adv.refl st
  unfold Does parseDigits
  have hd : (!isValueEnd st.cur) = true := by
    have : isDigit st.cur = true → isValueEnd st.cur = false := by
      simp only [isDigit, isValueEnd, Bool.and_eq_true, decide_eq_true_eq]
      intro ⟨h1, h2⟩
      simp
      omega
    rw [this hc]; rfl
  obtain ⟨r, hr⟩ := cur_pos hc (by decide)
  have hadv : Adv st ⟨st.rest.dropWhile fun c => !isValueEnd c, st.ext ++ st.rest.takeWhile (fun c => !isValueEnd c),
      st.aot, st.loss⟩ 1 := by
    refine ⟨List.dropWhile_suffix _, ?_, rfl⟩
    exact dropWhile_shorter (p := fun c => !isValueEnd c) hr hd
  refine wp_bind (wp_skip ?_)
  refine wp_bind (wp_extract ?_)
  have hraw : st.ext ++ st.rest.takeWhile (fun c => !isValueEnd c) ++ st.rest.dropWhile (fun c => !isValueEnd c) = st.rest := by
    rw [hext, List.nil_append, List.takeWhile_append_dropWhile]
  revert hadv hraw
  generalize hs : (⟨st.rest.dropWhile fun c => !isValueEnd c, st.ext ++ st.rest.takeWhile (fun c => !isValueEnd c),
      st.aot, st.loss⟩ : St) = s
  have he1 : st.ext ++ st.rest.takeWhile (fun c => !isValueEnd c) = s.ext := by rw [← hs]
  have he2 : st.rest.dropWhile (fun c => !isValueEnd c) = s.rest := by rw [← hs]
  rw [he1, he2]
  intro h hraw
  have hlong : ∀ e, parseRfc3339 s.ext = .error e → e = .overflowError → LongNumber st.rest := by
    rintro e he rfl
    rw [← hraw]
    exact (rfc_overflow he).mono (List.prefix_append _ _).isInfix
  have hnum : (match parseNumber s.ext {} with
    | some i => (pure i : P Item)
    | none => fail .invalidNumber).wp (Ctr 1 Plain st) (CtrE st) s := by
    rcases hp : parseNumber s.ext {} with _ | i
    · exact h.fail
    · refine h.ret (Nat.le_refl _) ?_
      rcases parseNumber_plain hp with ⟨v, o, rfl⟩ | ⟨v, o, rfl⟩ <;> intro W <;> exact trivial
  rcases hm : matchLoose s.ext with _ | ⟨_ | _, _ | _⟩
  · exact hnum
  · exact hnum
  · dsimp only
    rcases hp : parseRfc3339 s.ext with e | v
    · exact dateErr_does h _ _ (hlong _ hp)
    · obtain ⟨d, rfl⟩ := rfc_of_loose_ft hm hp
      exact h.ret (Nat.le_refl _) (fun W => trivial)
  · dsimp only
    rcases hp : parseRfc3339 s.ext with e | v
    · exact dateErr_does h _ _ (hlong _ hp)
    · have hv : ∀ d, v ≠ .time d := by
        rintro d rfl
        obtain ⟨r1, h1, _, _⟩ := matchLoose_date hm
        rw [rfc_time_loose hp] at h1
        cases h1
      have hgo : P.wp (do
          mark
          skip fun c => !isDateEnd c
          let timeRaw ← extract
          let timePart := rstrip timeRaw
          let cws := timeRaw.drop timePart.length
          if timePart.isEmpty then
            match v with
            | .date d => return .date d { commentWs := cws } s.ext
            | .datetime d => return .date d.date { commentWs := cws } s.ext
            | .time _ => raise .assertion
          else
            match parseRfc3339 (s.ext ++ timePart) with
            | .ok (.datetime d) => return .datetime d { commentWs := cws } (s.ext ++ timePart)
            | .ok _ => raise .assertion
            | .error e => dateErr .invalidDate e) (Ctr 1 Plain st) (CtrE st) s := by
        refine wp_bind (h.mark' fun s' h hr he => ?_)
        refine wp_bind (h.skip' fun s2 h hr2 he2' => ?_)
        refine wp_bind (wp_extract (wp_ite (fun _ => ?_) fun hne => ?_))
        · cases v with
          | time d => exact absurd rfl (hv d)
          | date d => exact h.ret (Nat.le_refl _) (fun W => trivial)
          | datetime d => exact h.ret (Nat.le_refl _) (fun W => trivial)
        · rcases hp2 : parseRfc3339 (s.ext ++ rstrip s2.ext) with e | v2
          · refine dateErr_does h _ _ ?_
            rintro rfl
            refine (rfc_overflow hp2).mono (List.IsPrefix.isInfix ?_)
            rw [← hraw]
            refine (List.prefix_append_right_inj _).2 ((rstrip_prefix _).trans ?_)
            rw [he2', he, List.nil_append, hr]
            exact List.takeWhile_prefix _
          · obtain ⟨d, rfl⟩ := rfc_of_loose_more hm (by simpa using hne) (by
              rw [he2', he, List.nil_append]
              exact rstrip_not_nl (takeWhile_ne (by decide))) hp2
            exact h.ret (Nat.le_refl _) (fun W => trivial)
      cases v with
      | time d => exact absurd rfl (hv d)
      | date d => exact hgo
      | datetime d => exact hgo
  · dsimp only
    rcases hp : parseRfc3339 s.ext with e | v
    · exact dateErr_does h _ _ (hlong _ hp)
    · obtain ⟨d, rfl⟩ := rfc_of_loose_tt hm hp
      exact h.ret (Nat.le_refl _) (fun W => trivial)

end Tomlkit
