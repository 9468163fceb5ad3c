import Verif.Proofs.Steps
/-!
# Contracts of values and key-value pairs
-/
namespace Tomlkit

theorem append_err {validate : Bool} {c : Cont} (h : c.Good PW) {key : Option Key} (hk : ∀ k, key = some k → k.parts ≠ [])
    {v : Item} (hv : v.Good PW) {e : Err} (hr : Cont.append validate c key v = .error e) : AppErr e := by
  unfold Cont.append at hr
  rcases key with _ | key <;> simp only at hr
  · exact (append1_err _).1 h hv (Nat.le_refl _) hr
  · rcases hkp : key.parts with _ | ⟨k, _ | ⟨k2, r⟩⟩ <;> rw [hkp] at hr <;> simp only at hr
    · exact absurd hkp (hk _ rfl)
    · exact (append1_err _).1 h hv (Nat.le_refl _) hr
    · split at hr
      · cases hr; exact Or.inr (Or.inl rfl)
      · rcases hdc : dottedChain none (k2 :: r) key.sep v with _ | t <;> rw [hdc] at hr <;> dsimp only at hr
        · exfalso
          have : ∀ (l : List SKey) (k : SKey) (nm sep), dottedChain nm (k :: l) sep v ≠ none := by
            intro l
            induction l with
            | nil => intro k nm sep h; simp [dottedChain] at h
            | cons a l ih => intro k nm sep h; simp only [dottedChain, Option.map_eq_none_iff] at h; exact ih _ _ _ h
          exact this _ _ _ _ hdc
        · exact (append1_err _).1 h ((Item.good_table t).2 (dottedChain_good closed_PW hv hdc)) (Nat.le_refl _) hr

theorem has_err {c : Cont} (h : c.Good PW) {k : Str} {v : Item} {e : Err} (hr : Cont.has (fuelFor c v) c k = .error e) :
    AppErr e := (append1_err _).2.1 h (by unfold fuelFor; omega) hr

theorem tblRawAppend_err {t : Tbl} (h : t.Good PW) {key : Option Key} (hk : ∀ k, key = some k → k.parts ≠ [])
    {v : Item} (hv : v.Good PW) {e : Err} (hr : Tbl.rawAppend t key v = .error e) : AppErr e := by
  unfold Tbl.rawAppend at hr
  rcases hx : Cont.append false t.cont key v with er | ⟨c, m1⟩ <;> rw [hx] at hr <;> dsimp only at hr
  · cases hr; exact append_err ((Tbl.good_iff t).1 h) hk hv hx
  · have hc := append_good closed_PW ((Tbl.good_iff t).1 h) hv hx
    split at hr
    · cases hr
      rename_i he
      split at he
      · exact has_err hc he
      · cases he
    · cases hr

theorem validateAll_err {c : Cont} (h : c.Good PW) {e : Err} (hr : c.validateAll = .error e) : AppErr e := by
  unfold Cont.validateAll at hr
  generalize c.map.map (·.1) = l at hr
  induction l with
  | nil => cases hr
  | cons k l ih =>
    simp only [foldE] at hr
    split at hr
    · cases hr
      rename_i he
      exact has_err h (map_pair_err he)
    · exact ih hr

/-- the error of an operation on containers -/
theorem Adv.lift {α : Type} {st s : St} {j : Nat} (h : Adv st s j) {x : Except Err α} {Q : α → St → Prop}
    (he : ∀ e, x = .error e → AppErr e) (hq : ∀ a, x = .ok a → Q a s) : (Tomlkit.lift x).wp Q (CtrE st) s :=
  wp_lift hq fun e hx => ⟨h.suf, h.aot, Or.inr (Or.inr (he e hx))⟩

theorem addWs_does (c : Cont) (raw : Str) (hc : c.Good PW) (st : St) : Does (addWs c raw) 0 (fun c => c.Good PW) st := by
  have h := Adv.refl st
  unfold Does addWs
  refine wp_ite (fun _ => h.ret (Nat.zero_le _) hc) fun _ => ?_
  refine wp_bind (h.lift (fun e he => append_err hc (by simp) (v := .ws raw false) trivial he) fun a ha => ?_)
  exact h.ret (Nat.zero_le _) (append_good closed_PW hc (v := .ws raw false) trivial ha)

theorem setSep_parts (k : Key) (s : Str) (h : k.parts ≠ []) : (k.setSep s).parts ≠ [] := by
  cases k
  · simp [Key.setSep, Key.parts]
  · exact h

theorem wp_congr {α : Type} {m m' : P α} {Q : α → St → Prop} {E : Err → St → Prop} {st : St} (he : m st = m' st)
    (h : m'.wp Q E st) : m.wp Q E st := by
  unfold P.wp at *; rw [he]; exact h

theorem wp_match {α β : Type} {m : P β} {f : β → P α} {g : St → Err → P α} {Q : α → St → Prop} {E : Err → St → Prop}
    {st : St} (h : m.wp (fun b s => (f b).wp Q E s) (fun e s => (g st e).wp Q E s) st) :
    P.wp (fun st0 => match m st0 with
      | .ok v s1 => f v s1
      | .err e s1 => g st0 e s1) Q E st := by
  unfold P.wp at *
  dsimp only
  cases hm : m st <;> rw [hm] at h <;> exact h

/-- what a value contract says about the result -/
abbrev GoodItem (v : Item) : Prop := v.Good PW

theorem value_does : ∀ n,
    (∀ st : St, 3 * st.rest.length + 1 ≤ n → Does (parseValue n) 1 GoodItem st) ∧
    (∀ (st : St) (prev : Bool) (elems : List Item), 3 * st.rest.length + 2 ≤ n → (∀ i ∈ elems, GoodItem i) →
      Does (arrayLoop n prev elems) 0 (fun l => ∀ i ∈ l, GoodItem i) st) ∧
    (∀ (st : St) (tc : Option Bool) (c : Cont), 3 * st.rest.length + 3 ≤ n → c.Good PW →
      Does (inlineParse n tc c) 0 (fun c => c.Good PW) st) ∧
    (∀ (st : St) (b : Bool), 3 * st.rest.length + 2 ≤ n →
      Does (parseKeyValue n b) 2 (fun p => p.1.parts ≠ [] ∧ GoodItem p.2) st) := by
  intro n
  induction n with
  | zero =>
    refine ⟨?_, ?_, ?_, ?_⟩
    · intro st h; omega
    · intro st _ _ h; omega
    · intro st _ _ h; omega
    · intro st _ h; omega
  | succ n ih =>
    obtain ⟨ihV, ihA, ihI, ihK⟩ := ih
    refine ⟨?_, ?_, ?_, ?_⟩
    · intro st hn
      have h := Adv.refl st
      unfold Does parseValue
      refine wp_bind (h.mark' fun s h hr hext => ?_)
      refine wp_bind (wp_getSt ?_)
      have hstr : ∀ d, P.wp (restoring (parseString d)) (Ctr 1 GoodItem st) (CtrE st) s := by
        intro d
        refine wp_restoring (wp_mono (parseString_does d s) ?_ ?_)
        · intro a s' hc
          obtain ⟨ty, x, o, rfl⟩ := hc.2.2.2
          exact h.ctr (G := GoodItem) ⟨hc.1, hc.2.1, hc.2.2.1, trivial⟩ (by omega)
        · intro e s' he
          exact h.err ⟨List.suffix_refl _, he.2.1, he.2.2⟩
      refine wp_ite (fun _ => hstr _) fun _ => wp_ite (fun _ => hstr _) fun _ => wp_ite (fun _ => ?_) fun _ =>
        wp_ite (fun _ => ?_) fun _ => wp_ite (fun _ => ?_) fun _ => wp_ite (fun _ => ?_) fun _ =>
        wp_ite (fun hsp => ?_) fun _ => wp_ite (fun hd => ?_) fun _ => h.fail
      · exact h.last (parseBool_does _ _ _ (by decide)) (by omega) (by rintro _ rfl; trivial)
      · exact h.last (parseBool_does _ _ _ (by decide)) (by omega) (by rintro _ rfl; trivial)
      · refine wp_bind (h.stepE fun s h _ => ?_)
        have hl := h.len
        refine wp_bind (h.call (ihA s _ _ (by omega) (by simp)) fun l s h hl => ?_)
        refine h.ret (by omega) ?_
        exact (Item.good_array _ _ _).2 (groupValues_good hl)
      · refine wp_bind (h.stepE fun s h _ => ?_)
        have hl := h.len
        refine wp_bind (h.call (ihI s _ _ (by omega) (Cont.good_empty closed_PW)) fun c s h hc => ?_)
        exact h.ret (by omega) hc
      · -- a special number
        have hne : ∃ c r, s.rest = c :: r ∧ (!isValueEnd c) = true := by
          unfold startsSpecialNumber at hsp
          rcases hs : s.rest with _ | ⟨c, r⟩ <;> rw [hs] at hsp
          · exact absurd hsp (by decide)
          · refine ⟨c, r, rfl, ?_⟩
            by_cases hv : isValueEnd c = true
            · exfalso
              have hc : c ≠ 43 ∧ c ≠ 45 := by
                constructor <;> rintro rfl <;> revert hv <;> decide
              simp [hc.1, hc.2, hv] at hsp
            · simpa using hv
        obtain ⟨c, r, hs, hv⟩ := hne
        have hadv : Adv st ⟨s.rest.dropWhile fun c => !isValueEnd c, s.ext ++ s.rest.takeWhile (fun c => !isValueEnd c),
            s.aot, s.loss⟩ 1 := by
          refine ⟨(List.dropWhile_suffix _).trans h.suf, ?_, h.aot⟩
          have := dropWhile_shorter (p := fun c => !isValueEnd c) hs hv
          have := h.len
          simp only; omega
        refine wp_bind (wp_skip (wp_bind (wp_extract ?_)))
        dsimp only
        split
        · rename_i i hi
          refine hadv.ret (by omega) ?_
          rcases parseNumber_plain hi with ⟨v, o, rfl⟩ | ⟨v, o, rfl⟩ <;> exact trivial
        · exact hadv.fail
      · exact h.last (parseDigits_does s hd hext) (by omega) fun v hv => hv PW
    · intro st prev elems hn hel
      have h := Adv.refl st
      unfold Does arrayLoop
      refine wp_bind (wp_getSt ?_)
      have hws : ∀ x, ∀ i ∈ elems ++ [Item.ws x false], GoodItem i := by
        intro x i hi
        rcases List.mem_append.1 hi with hi | hi
        · exact hel i hi
        · rw [List.mem_singleton] at hi; subst hi; trivial
      have hcm : ∀ x, ∀ i ∈ elems ++ [Item.comment x], GoodItem i := by
        intro x i hi
        rcases List.mem_append.1 hi with hi | hi
        · exact hel i hi
        · rw [List.mem_singleton] at hi; subst hi; trivial
      have hlen : (st.rest.takeWhile isWs).length + (st.rest.dropWhile isWs).length = st.rest.length := by
        rw [← List.length_append, List.takeWhile_append_dropWhile]
      refine wp_bind (h.skip' fun s h hr _ => ?_)
      have hlr : s.rest.length + (st.rest.takeWhile isWs).length = st.rest.length := by rw [hr]; omega
      have hsl := h.len
      refine wp_bind (wp_getSt (wp_ite (fun hind => ?_) fun _ => wp_ite (fun hc => ?_) fun _ => wp_ite (fun hind => ?_)
        fun _ => wp_ite (fun _ => wp_ite (fun _ => ?_) fun _ => wp_ite (fun _ => ?_) fun _ => h.fail) fun _ => ?_))
      · have : 1 ≤ (st.rest.takeWhile isWs).length := by
          rcases hq : st.rest.takeWhile isWs with _ | _
          · rw [hq] at hind; cases hind
          · simp
        exact h.last (ihA s _ _ (by omega) (hws _)) (Nat.zero_le _) fun _ h => h
      · refine wp_bind (h.call (parseCommentTrail_at false s hc) fun a s h _ => ?_)
        obtain ⟨cws, comment, trail⟩ := a
        have := h.len
        exact h.last (ihA s _ _ (by omega) (hcm _)) (Nat.zero_le _) fun _ h => h
      · have : 1 ≤ (st.rest.takeWhile isWs).length := by
          rcases hq : st.rest.takeWhile isWs with _ | _
          · rw [hq] at hind; cases hind
          · simp
        exact h.last (ihA s _ _ (by omega) (hws _)) (Nat.zero_le _) fun _ h => h
      · refine wp_bind (h.stepE fun s h _ => ?_)
        have := h.len
        exact h.last (ihA s _ _ (by omega) (hws _)) (Nat.zero_le _) fun _ h => h
      · exact wp_bind (h.step fun s h _ => h.ret (Nat.zero_le _) hel)
      · refine wp_congr ?_ (wp_match (m := parseValue n) (f := fun v => do
            note (!v.trivia.commentWs.isEmpty) .dateWs
            arrayLoop n true (elems ++ [v])) (g := fun st0 e st1 =>
              if e.isUnexpectedChar then
                if st1.cur = 93 then (do
                  note (st1.rest.length != st0.rest.length) .swallowed
                  step
                  return elems) st1
                else fail .unexpectedChar st1
              else .err e st1) ?_)
        · rcases parseValue n s with ⟨v, s1⟩ | ⟨e, s1⟩ <;> rfl
        refine wp_mono (ihV s (by omega)) ?_ ?_
        · intro v s1 hv
          have hgood := hv.2.2.2
          have h := h.trans hv.adv
          have hlen := h.len
          refine wp_bind (h.note fun s' h hr => ?_)
          refine h.last (ihA s' _ _ (by rw [hr]; omega) ?_) (Nat.zero_le _) fun _ h => h
          intro i hi
          rcases List.mem_append.1 hi with hi | hi
          · exact hel i hi
          · rw [List.mem_singleton] at hi; subst hi; exact hgood
        · intro e s1 hv
          have h1 : Adv st s1 0 := ⟨hv.1.trans h.suf, (hv.1.trans h.suf).length_le, hv.2.1.trans h.aot⟩
          by_cases hu : e.isUnexpectedChar = true
          · by_cases hc : s1.cur = 93
            · refine wp_congr (m' := do
                note (s1.rest.length != s.rest.length) .swallowed
                step
                return elems) ((if_pos hu).trans (if_pos hc)) ?_
              exact wp_bind (h1.note fun s' h hr => wp_bind (h.step fun s h _ => h.ret (Nat.zero_le _) hel))
            · exact wp_congr (m' := fail .unexpectedChar) ((if_pos hu).trans (if_neg hc)) h1.fail
          · exact wp_congr (m' := raise e) (if_neg hu) (h.err hv)
    · intro st tc c hn hc
      have h := Adv.refl st
      unfold Does inlineParse
      refine wp_bind (wp_getSt ?_)
      refine wp_bind (h.skip' fun s h hr _ => ?_)
      refine wp_bind (h.call (addWs_does c _ hc s) fun c s h hc => ?_)
      have hsl := h.len
      refine wp_bind (wp_getSt (wp_ite (fun _ => ?_) fun _ => wp_ite (fun _ => h.fail) fun _ => wp_ite (fun _ => h.fail)
        fun _ => ?_))
      · exact wp_bind (h.step fun s h _ => h.ret (Nat.zero_le _) hc)
      · refine wp_bind (h.call (ihK s false (by omega)) fun p s h hp => ?_)
        obtain ⟨key, val⟩ := p
        refine wp_bind (h.lift (fun e he => append_err hc (by rintro k hk; cases hk; exact hp.1) hp.2 he) fun r hr => ?_)
        obtain ⟨c2, mv⟩ := r
        have hc2 := append_good closed_PW hc hp.2 hr
        refine wp_bind (h.note fun s h _ => ?_)
        refine wp_bind (wp_getSt ?_)
        refine wp_bind (h.skip' fun s h hr _ => ?_)
        refine wp_bind (h.call (addWs_does c2 _ hc2 s) fun c s h hc => ?_)
        refine wp_bind (wp_getSt ?_)
        refine wp_bind (h.note fun s' h _ => ?_)
        refine wp_ite (fun _ => ?_) fun _ => ?_
        · refine wp_bind (h.note fun s h _ => ?_)
          refine wp_bind (h.stepE fun s h _ => ?_)
          have := h.len
          exact h.last (ihI s _ _ (by omega) hc) (Nat.zero_le _) fun _ h => h
        · have := h.len
          exact h.last (ihI s' _ _ (by omega) hc) (Nat.zero_le _) fun _ h => h
    · intro st b hn
      have h := Adv.refl st
      unfold Does parseKeyValue
      refine wp_bind (h.mark' fun s h hr _ => ?_)
      refine wp_bind (h.skip' fun s h hr _ => ?_)
      refine wp_bind (wp_extract ?_)
      refine wp_bind (h.call (parseKeyHere_does s) fun k s h hk => ?_)
      refine wp_bind (h.call (parseSep_does s) fun sep s h _ => ?_)
      have := h.len
      refine wp_bind (h.call (ihV s (by omega)) fun v s h hv => ?_)
      refine wp_ite (fun _ => ?_) fun _ => ?_
      · refine wp_bind (h.call (parseCommentTrail_does true s) fun a s h _ => ?_)
        obtain ⟨cws, comment, trail⟩ := a
        refine wp_bind (h.note fun s h _ => ?_)
        exact h.ret (by omega) ⟨setSep_parts _ _ hk, (Item.setTrivia_good _ _).2 hv⟩
      · exact h.ret (by omega) ⟨setSep_parts _ _ hk, (Item.setTrivia_good _ _).2 hv⟩

end Tomlkit
