import Verif.Proofs.Values
/-!
# Contracts of items, tables and documents
-/
namespace Tomlkit

/-- the contract of the steps that read tables: after a failure nothing is said about the stack -/
def DoesT {α : Type} (m : P α) (k : Nat) (G : α → Prop) (st : St) : Prop :=
  m.wp (Ctr k G st) (fun e _ => OkErr st.rest e) st

section
variable {st s : St} {j : Nat} {α : Type}

/-- the failures allowed from `st` on -/
abbrev ErrT (st : St) : Err → St → Prop := fun e _ => OkErr st.rest e

theorem Adv.callC (h : Adv st s j) {m : P α} {Q Q' : α → St → Prop} (hm : m.wp Q' (CtrE s) s)
    (hq : ∀ a s', Q' a s' → Q a s') : m.wp Q (ErrT st) s :=
  wp_mono hm hq fun e _ he => he.2.2.mono h.suf

theorem Adv.callT {k : Nat} (h : Adv st s j) {m : P α} {G : α → Prop} (hm : DoesT m k G s)
    {Q : α → St → Prop} (hq : ∀ a s', Adv st s' (j + k) → G a → Q a s') : m.wp Q (ErrT st) s := by
  refine wp_mono hm ?_ ?_
  · intro a s' hc; exact hq a s' (h.trans hc.adv) hc.2.2.2
  · intro e s' he; exact OkErr.mono he h.suf

theorem Adv.callD {k : Nat} (h : Adv st s j) {m : P α} {G : α → Prop} (hm : Does m k G s)
    {Q : α → St → Prop} (hq : ∀ a s', Adv st s' (j + k) → G a → Q a s') : m.wp Q (ErrT st) s :=
  h.callC hm fun a s' hc => hq a s' (h.trans hc.adv) hc.2.2.2

theorem Adv.lastT {k i : Nat} (h : Adv st s j) {m : P α} {G G' : α → Prop} (hm : DoesT m k G s)
    (hi : i ≤ j + k) (hG : ∀ a, G a → G' a) : m.wp (Ctr i G' st) (ErrT st) s :=
  h.callT hm fun _ _ h' hg => ⟨h'.suf, (h'.weaken hi).len, h'.aot, hG _ hg⟩

theorem Adv.failT (h : Adv st s j) {k : PKind} {Q : α → St → Prop} :
    (Tomlkit.fail k : P α).wp Q (ErrT st) s := Or.inl ⟨k, _, rfl, h.le⟩

theorem Adv.retT {i : Nat} (h : Adv st s j) {a : α} {G : α → Prop} (hi : i ≤ j) (hG : G a) :
    (pure a : P α).wp (Ctr i G st) (ErrT st) s :=
  ⟨h.suf, (h.weaken hi).len, h.aot, hG⟩

theorem Adv.liftT {x : Except Err α} {Q : α → St → Prop}
    (he : ∀ e, x = .error e → AppErr e) (hq : ∀ a, x = .ok a → Q a s) : (Tomlkit.lift x).wp Q (ErrT st) s :=
  wp_lift hq fun e hx => Or.inr (Or.inr (he e hx))
end

/-- what `_parse_item` returns -/
structure ItemRes (st : St) (r : Option (Option Key × Item)) (s : St) : Prop where
  adv : Adv st s 0
  none : r = none → s.cur = 91
  some : ∀ k v, r = some (k, v) → Adv st s 1 ∧ (∀ k', k = some k' → k'.parts ≠ []) ∧ v.Good PW

theorem parseItem_does (st : St) : parseItem.wp (ItemRes st) (CtrE st) st := by
  have h := Adv.refl st
  unfold parseItem
  refine wp_bind (h.mark' fun s0 h0 hr0 he0 => ?_)
  refine wp_bind (wp_getSt ?_)
  refine wp_bind (h0.skip' fun s h hr he => ?_)
  have hlen : s.ext.length + s.rest.length = st.rest.length := by
    rw [he, hr, he0, hr0, List.nil_append, ← List.length_append, List.takeWhile_append_dropWhile]
  refine wp_bind (wp_getSt (wp_ite (fun hc => ?_) fun _ => wp_ite (fun hc => ?_) fun _ => wp_ite (fun hc => ?_) fun _ =>
    wp_ite (fun hc => ?_) fun _ => ?_))
  · refine wp_bind (h.step1 (by rw [hc]; decide) fun s h _ => ?_)
    refine wp_bind (wp_extract (wp_pure ⟨h.weaken (Nat.zero_le _), by simp, ?_⟩))
    rintro k v hkv; cases hkv
    exact ⟨h, by simp, trivial⟩
  · refine wp_pure ⟨h, by simp, ?_⟩
    rintro k v hkv; cases hkv
    refine ⟨⟨h.suf, ?_, h.aot⟩, by simp, trivial⟩
    simp only [Bool.and_eq_true, St.atEnd, Bool.not_eq_true'] at hc
    rcases hx : s.ext with _ | ⟨_, _⟩
    · rw [hx] at hc; simp at hc
    · rw [hx] at hlen; simp at hlen; omega
  · refine wp_bind (wp_extract ?_)
    refine wp_bind (h.call (parseCommentTrail_at true s hc) fun a s h _ => ?_)
    obtain ⟨cws, comment, trail⟩ := a
    refine wp_pure ⟨h.weaken (Nat.zero_le _), by simp, ?_⟩
    rintro k v hkv; cases hkv
    exact ⟨h, by simp, trivial⟩
  · exact wp_pure ⟨h, fun _ => hc, by simp⟩
  · refine wp_bind ?_
    show P.wp (parseKeyValue (valueFuel s0.rest) true) _ _ s0
    refine h0.call ((value_does _).2.2.2 s0 true (by unfold valueFuel; omega)) fun p s h hp => ?_
    obtain ⟨k, v⟩ := p
    refine wp_pure ⟨h.weaken (Nat.zero_le _), by simp, ?_⟩
    rintro k v hkv; cases hkv
    exact ⟨h.weaken (by omega), by rintro _ hk; cases hk; exact hp.1, hp.2⟩

theorem mergeWs_good {c c' : Cont} {v : Item} (h : c.Good PW) (hm : mergeWs c v = some c') : c'.Good PW := by
  unfold mergeWs at hm
  split at hm
  · rename_i k s f s' f' hl
    cases hm
    rw [Cont.good_iff] at *
    have hb : c.body.dropLast ++ [Entry.mk k (.ws s f)] = c.body := by
      have hne : c.body ≠ [] := by intro h0; rw [h0] at hl; cases hl
      have := List.dropLast_concat_getLast hne
      rw [List.getLast?_eq_some_getLast hne, Option.some.injEq] at hl
      rwa [hl] at this
    refine ⟨closed_PW.shape h.1 ?_, ?_⟩
    · conv => rhs; rw [← hb]
      simp [Entry.shape, Entry.name, Entry.v, Item.isTable]
    · intro e he
      simp only [Cont.body_mk, List.mem_append, List.mem_singleton] at he
      rcases he with he | rfl
      · exact h.2 e (List.dropLast_subset _ he)
      · trivial
  · cases hm

theorem peekTable_does (st : St) :
    peekTable.wp (fun p s => s = st ∧ p.2.parts ≠ []) (CtrE st) st := by
  have h := Adv.refl st
  unfold peekTable
  have : ∀ (m : P (Bool × Key)), m.wp (Ctr 0 (fun p => p.2.parts ≠ []) st) (CtrE st) st →
      (peeking m).wp (fun p s => s = st ∧ p.2.parts ≠ []) (CtrE st) st := by
    intro m hm
    refine wp_peeking (wp_mono hm ?_ ?_)
    · intro a s hc; exact ⟨rfl, hc.2.2.2⟩
    · intro e s he; exact ⟨List.suffix_refl _, rfl, he.2.2⟩
  refine this _ ?_
  refine wp_bind (wp_getSt (wp_ite (fun _ => h.fail) fun hc => ?_))
  refine wp_bind (h.step fun s h _ => ?_)
  refine wp_bind (wp_getSt (wp_ite (fun hc => ?_) fun _ => ?_))
  · refine wp_bind (h.step fun s h _ => ?_)
    exact wp_bind (h.call (headerKey_does s) fun k s h hk => h.ret (Nat.zero_le _) hk)
  · exact wp_bind (h.call (headerKey_does s) fun k s h hk => h.ret (Nat.zero_le _) hk)

theorem eqv_setSep (k k' : Key) (s : Str) : Key.eqv (k.setSep s) k' = Key.eqv k k' := by
  cases k <;> cases k' <;> rfl

theorem wp_eq {α : Type} {m : P α} {Q : α → St → Prop} {E : Err → St → Prop} {st : St} (h : m.wp Q E st) :
    m.wp (fun a s => m st = .ok a s ∧ Q a s) E st := by
  unfold P.wp at *
  cases hm : m st <;> rw [hm] at h <;> simp only
  · exact ⟨trivial, h⟩
  · exact h

/-- the header read is the one seen by looking ahead -/
theorem parseHeader_does (st : St) : Does parseHeader 1 (fun h => h.key.parts ≠ [] ∧
    ∃ k, peekTable st = .ok (h.isAot, k) st ∧ h.key = k.setSep []) st := by
  have h := Adv.refl st
  unfold Does parseHeader
  refine wp_bind (wp_getSt (wp_ite (fun _ => h.fail) fun hc => ?_))
  have hc : st.cur = 91 := by simpa using hc
  refine wp_bind (wp_extract ?_)
  obtain ⟨r, hr⟩ := cur_cons hc (by decide)
  refine wp_bind (wp_step ?_)
  have h1 : Adv st { st with rest := st.rest.drop 1, ext := st.ext ++ st.rest.take 1 } 1 := by
    refine ⟨List.drop_suffix _ _, ?_, rfl⟩
    simp [hr]
  have hstep : step st = .ok () { st with rest := st.rest.drop 1, ext := st.ext ++ st.rest.take 1 } := by
    unfold step; cases st; simp only at hr; subst hr; rfl
  generalize ({ st with rest := st.rest.drop 1, ext := st.ext ++ st.rest.take 1 } : St) = s at *
  -- after the key
  have hend : ∀ (b : Bool) (key : Key) (s' : St), Adv st s' 1 → key.parts ≠ [] → peekTable st = .ok (b, key) st → P.wp (do
        let st' ← getSt
        if st'.atEnd then fail .unexpectedEof
        else if st'.cur ≠ 93 then fail .unexpectedChar
        else
          let key := key.setSep []
          if key.parts.any fun p => (strip p.key).contains 32 && p.t == .bare then fail .generic
          else
            step
            let st' ← getSt
            note (b && st'.cur != 93) .aotClose
            if b then step
            let (cws, comment, trail) ← parseCommentTrail true
            let st' ← getSt
            note (!hasNl trail && !st'.atEnd) .headerCr
            return (⟨st.ext, b, key, cws, comment, trail⟩ : Header)) (Ctr 1 (fun h => h.key.parts ≠ [] ∧
      ∃ k, peekTable st = .ok (h.isAot, k) st ∧ h.key = k.setSep []) st) (CtrE st) s' := by
    intro b key s' h hk hp
    refine wp_bind (wp_getSt (wp_ite (fun _ => h.fail) fun _ => wp_ite (fun _ => h.fail) fun _ =>
      wp_ite (fun _ => h.fail) fun _ => ?_))
    refine wp_bind (h.step fun s h _ => ?_)
    refine wp_bind (wp_getSt ?_)
    refine wp_bind (h.note fun s h _ => ?_)
    refine wp_ite (fun _ => ?_) fun _ => ?_
    · refine wp_bind (h.step fun s h _ => ?_)
      refine wp_bind (h.call (parseCommentTrail_does true s) fun a s h _ => ?_)
      obtain ⟨cws, comment, trail⟩ := a
      refine wp_bind (wp_getSt (wp_bind (h.note fun s h _ => ?_)))
      exact h.ret (by omega) ⟨setSep_parts _ _ hk, _, hp, rfl⟩
    · refine wp_bind (h.call (parseCommentTrail_does true s) fun a s h _ => ?_)
      obtain ⟨cws, comment, trail⟩ := a
      refine wp_bind (wp_getSt (wp_bind (h.note fun s h _ => ?_)))
      exact h.ret (by omega) ⟨setSep_parts _ _ hk, _, hp, rfl⟩
  refine wp_bind (wp_getSt (wp_ite (fun _ => h1.fail) fun _ => ?_))
  have hpk : peekTable st = (match (if s.cur = 91 then (do
        step
        let k ← headerKey
        return (true, k)) else (do
        let k ← headerKey
        return (false, k)) : P (Bool × Key)) s with
      | .ok a _ => .ok a st
      | .err e _ => .err e st) := by
    unfold peekTable peeking
    rw [P.bind_def]
    have : getSt st = .ok st st := rfl
    rw [this]
    dsimp only
    rw [if_neg (by simpa using hc), P.bind_def, hstep]
    dsimp only
    rw [P.bind_def]
    have : getSt s = .ok s s := rfl
    rw [this]
    dsimp only
    by_cases ha : s.cur = 91
    · rw [if_pos ha]
      generalize (step >>= fun _ => headerKey >>= fun k => (pure (true, k) : P (Bool × Key))) s = x
      cases x <;> rfl
    · rw [if_neg ha]
      generalize (headerKey >>= fun k => (pure (false, k) : P (Bool × Key))) s = x
      cases x <;> rfl
  by_cases ha : s.cur = 91
  · simp only [ha, decide_true, if_true]
    refine wp_bind (wp_step ?_)
    rw [if_pos ha] at hpk
    have hs2 : ∃ s2, step s = .ok () s2 ∧ s2 = { s with rest := s.rest.drop 1, ext := s.ext ++ s.rest.take 1 } := by
      refine ⟨_, ?_, rfl⟩
      obtain ⟨r, hr⟩ := cur_cons ha (by decide)
      unfold step; cases s; simp only at hr; subst hr; rfl
    obtain ⟨s2, hs2, hs3⟩ := hs2
    rw [← hs3]
    have h2 : Adv st s2 1 := by rw [hs3]; exact h1.drop 1
    refine wp_bind (wp_getSt (wp_ite (fun _ => h2.fail) fun _ => ?_))
    refine wp_bind ?_
    refine wp_mono (wp_eq (headerKey_does s2)) ?_ ?_
    · rintro k s3 ⟨hk1, hk2⟩
      refine hend true k s3 ((h2.trans hk2.adv).weaken (by omega)) hk2.2.2.2 ?_
      rw [hpk, P.bind_def, hs2]
      dsimp only
      rw [P.bind_def, hk1]
      rfl
    · intro e s' he; exact h2.err he
  · simp only [ha, decide_false, Bool.false_eq_true, if_false]
    rw [if_neg ha] at hpk
    refine wp_bind (wp_getSt (wp_ite (fun _ => h1.fail) fun _ => ?_))
    refine wp_bind ?_
    refine wp_mono (wp_eq (headerKey_does s)) ?_ ?_
    · rintro k s3 ⟨hk1, hk2⟩
      refine hend false k s3 ((h1.trans hk2.adv).weaken (by omega)) hk2.2.2.2 ?_
      rw [hpk, P.bind_def, hk1]
      rfl
    · intro e s' he; exact h1.err he

theorem wrapOne_good {k : SKey} {v : Item} {t : Trivia} {a : Bool} {name : Str} (h : v.Good PW) :
    (wrapOne k v t a name).Good PW := by
  unfold wrapOne
  rw [Tbl.good_iff, Tbl.cont, Cont.good_iff]
  exact ⟨closed_PW.one _ _, by intro e he; rw [Cont.body_mk, List.mem_singleton] at he; subst he; exact h⟩

theorem chain_good (h : Header) {leaf : Tbl} (hl : leaf.Good PW) : ∀ (ks : List SKey) (t : Trivia) (a : Bool) (name : Str),
    (h.chain leaf t a name ks).Good PW
  | [], _, _, _ => hl
  | [k], t, a, name => by
    unfold Header.chain
    refine wrapOne_good ?_
    split
    · exact mkAoT_good (by intro x hx; rw [List.mem_singleton] at hx; subst hx; exact hl)
    · exact hl
  | k :: k2 :: r, t, a, name => by
    unfold Header.chain
    exact wrapOne_good (v := .table _) (chain_good h hl (k2 :: r) _ _ _)

theorem leaf_good (h : Header) (name : Str) : (h.leaf name).Good PW := by
  unfold Header.leaf
  rw [Tbl.good_iff]
  exact Cont.good_empty closed_PW

/-- what `_parse_table` returns -/
def TableRes (st : St) (p : Key × Item) : Prop :=
  p.1.parts ≠ [] ∧ p.2.Good PW ∧
  ∀ k top, peekTable st = .ok (true, k) st → st.aot.getLast? = some top → Key.eqv k top = true → ∃ t, p.2 = .table t

theorem wp_modify {f : St → St} {Q : Unit → St → Prop} {E : Err → St → Prop} {st : St} (h : Q () (f st)) :
    P.wp (fun st => .ok () (f st)) Q E st := h

theorem table_does : ∀ n,
    (∀ (st : St) (parent : Option Key), 4 * st.rest.length + 1 ≤ n → DoesT (parseTable n parent) 1 (TableRes st) st) ∧
    (∀ (st : St) (full : Key) (tb : Tbl), 4 * st.rest.length + 3 ≤ n → tb.Good PW →
      DoesT (tableLoop n full tb) 0 (fun t => t.Good PW) st) ∧
    (∀ (st : St) (full : Key) (tb : Tbl), 4 * st.rest.length + 2 ≤ n → tb.Good PW →
      DoesT (childLoop n full tb) 0 (fun t => t.Good PW) st) ∧
    (∀ (st : St) (first : Tbl) (name : Key), 4 * st.rest.length + 3 ≤ n → first.Good PW →
      DoesT (parseAot n first name) 0 (fun v => v.Good PW) st) ∧
    (∀ (st : St) (name : Key) (ts : List Tbl), 4 * st.rest.length + 2 ≤ n → (∀ t ∈ ts, t.Good PW) →
      st.aot.getLast? = some name → DoesT (aotLoop n name ts) 0 (fun l => ∀ t ∈ l, t.Good PW) st) := by
  intro n
  induction n with
  | zero =>
    refine ⟨?_, ?_, ?_, ?_, ?_⟩
    · intro st _ h; omega
    · intro st _ _ h; omega
    · intro st _ _ h; omega
    · intro st _ _ h; omega
    · intro st _ _ h; omega
  | succ n ih =>
    obtain ⟨ihT, ihB, ihC, ihA, ihO⟩ := ih
    refine ⟨?_, ?_, ?_, ?_, ?_⟩
    · intro st parent hn
      have h := Adv.refl st
      unfold DoesT parseTable
      refine wp_bind (h.callD (parseHeader_does st) fun hd s h hh => ?_)
      obtain ⟨hparts, k0, hpk, hkey⟩ := hh
      refine wp_bind (h.note fun s h _ => ?_)
      have hl := h.len
      refine wp_bind (h.callT (ihB s _ _ (by omega) (leaf_good _ _)) fun tb s h htb => ?_)
      refine wp_bind (Adv.liftT (fun e he => validateAll_err ((Tbl.good_iff tb).1 htb) he) fun _ _ => ?_)
      refine wp_bind (wp_getSt ?_)
      have hl := h.len
      have hrest : ∀ (key : Key), key.parts ≠ [] → P.wp (if hd.isAot && (match s.aot.getLast? with
            | some top => !Key.eqv hd.key top | none => true) then do
          let a ← parseAot n tb hd.key
          return (key, a)
        else return (key, Item.table tb)) (Ctr 1 (TableRes st) st) (ErrT st) s := by
        intro key hk
        refine wp_ite (fun hc => ?_) fun _ => ?_
        · refine wp_bind (h.callT (ihA s _ _ (by omega) htb) fun a s' h' ha => ?_)
          refine h'.retT (by omega) ⟨hk, ha, ?_⟩
          intro k top hpk2 htop heq
          exfalso
          rw [hpk2] at hpk
          simp only [Res.ok.injEq, Prod.mk.injEq] at hpk
          rw [← hpk.1.2] at hkey
          simp [h.aot, htop, hkey, eqv_setSep, heq] at hc
        · exact h.retT (by omega) ⟨hk, htb, fun _ _ _ _ _ => ⟨_, rfl⟩⟩
      dsimp only
      split
      · rename_i k p r hparts'
        refine h.retT (by omega) ⟨by simp [Key.parts], ?_, fun _ _ _ _ _ => ⟨_, rfl⟩⟩
        exact chain_good hd htb (p :: r) _ _ _
      · refine hrest _ ?_
        split
        · simp [Key.parts]
        · exact hparts
    · intro st full tb hn htb
      have h := Adv.refl st
      unfold DoesT tableLoop
      refine wp_bind (wp_getSt (wp_ite (fun _ => h.retT (Nat.zero_le _) htb) fun _ => ?_))
      refine wp_bind (h.callC (parseItem_does st) fun r s hr => ?_)
      rcases r with _ | ⟨k, v⟩
      · have h := hr.adv
        have hl := h.len
        dsimp only
        refine wp_bind (wp_getSt (wp_ite (fun _ => ?_) fun _ => h.failT))
        exact h.lastT (ihC s _ _ (by omega) htb) (Nat.zero_le _) fun _ h => h
      · obtain ⟨h, hk, hv⟩ := hr.some k v rfl
        have hl := h.len
        dsimp only
        split
        · rename_i c hm
          exact h.lastT (ihB s _ _ (by omega) ((Tbl.setCont_good _ _).2 (mergeWs_good ((Tbl.good_iff _).1 htb) hm)))
            (Nat.zero_le _) fun _ h => h
        · refine wp_bind (Adv.liftT (fun e he => tblRawAppend_err htb hk hv he) fun r hr => ?_)
          obtain ⟨t', mv⟩ := r
          refine wp_bind (h.note fun s' h hr' => ?_)
          exact h.lastT (ihB s' _ _ (by rw [hr']; omega) (tblRawAppend_good closed_PW htb hv hr)) (Nat.zero_le _) fun _ h => h
    · intro st full tb hn htb
      have h := Adv.refl st
      unfold DoesT childLoop
      refine wp_bind (wp_getSt (wp_ite (fun _ => h.retT (Nat.zero_le _) htb) fun _ => ?_))
      refine wp_bind (h.callC (peekTable_does st) fun p s hp => ?_)
      obtain ⟨b, next⟩ := p
      obtain ⟨rfl, hnext⟩ := hp
      refine wp_ite (fun _ => ?_) fun _ => h.retT (Nat.zero_le _) htb
      refine wp_bind (h.callT (ihT s (some full) (by omega)) fun p s h hp => ?_)
      obtain ⟨k, v⟩ := p
      have hl := h.len
      refine wp_bind (Adv.liftT (fun e he => tblRawAppend_err htb (by rintro _ hk; cases hk; exact hp.1) hp.2.1 he)
        fun r hr => ?_)
      obtain ⟨t', mv⟩ := r
      refine wp_bind (h.note fun s' h hr' => ?_)
      exact h.lastT (ihC s' _ _ (by rw [hr']; omega) (tblRawAppend_good closed_PW htb hp.2.1 hr)) (Nat.zero_le _)
        fun _ h => h
    · intro st first name hn hf
      unfold DoesT parseAot
      refine wp_bind ?_
      show P.wp _ _ _ ({ st with aot := st.aot ++ [name] } : St)
      refine wp_bind (wp_mono (ihO { st with aot := st.aot ++ [name] } name [first] (by show 4 * st.rest.length + 2 ≤ n; omega) (by
        intro x hx; rw [List.mem_singleton] at hx; subst hx; exact hf) (by simp)) ?_ ?_)
      · intro ts s hc
        refine wp_bind (wp_modify (f := fun st => { st with aot := st.aot.dropLast }) ?_)
        refine wp_pure ⟨hc.1, hc.2.1, ?_, mkAoT_good hc.2.2.2⟩
        have := hc.2.2.1
        simp only at this ⊢
        rw [this]; simp
      · intro e s he; exact he
    · intro st name ts hn hts htop
      have h := Adv.refl st
      unfold DoesT aotLoop
      refine wp_bind (wp_getSt (wp_ite (fun _ => h.retT (Nat.zero_le _) hts) fun _ => ?_))
      refine wp_bind (h.callC (wp_eq (peekTable_does st)) fun p s hp => ?_)
      obtain ⟨b, next⟩ := p
      obtain ⟨hpk, rfl, hnext⟩ := hp
      refine wp_ite (fun hc => ?_) fun _ => h.retT (Nat.zero_le _) hts
      simp only [Bool.and_eq_true] at hc
      obtain ⟨rfl, heq⟩ := hc
      refine wp_bind (h.callT (ihT s (some name) (by omega)) fun p s' h hp => ?_)
      obtain ⟨k, v⟩ := p
      obtain ⟨t, ht⟩ := hp.2.2 next name hpk htop heq
      simp only at ht
      subst ht
      have hl := h.len
      dsimp only
      refine h.lastT (ihO s' _ _ (by omega) ?_ (by rw [h.aot]; exact htop)) (Nat.zero_le _) fun _ h => h
      intro x hx
      rcases List.mem_append.1 hx with hx | hx
      · exact hts x hx
      · rw [List.mem_singleton] at hx; subst hx; exact hp.2.1

theorem wrapErr_wp {α : Type} {st s : St} {j : Nat} (h : Adv st s j) {x : Except Err α} {Q : α → St → Prop}
    (he : ∀ e, x = .error e → AppErr e) (hq : ∀ a, x = .ok a → Q a s) : (wrapErr x).wp Q (ErrT st) s := by
  unfold P.wp wrapErr
  rcases x with e | a
  · rcases he e rfl with rfl | rfl | rfl | rfl
    · exact Or.inl ⟨_, _, rfl, h.le⟩
    · exact Or.inl ⟨_, _, rfl, h.le⟩
    · exact Or.inl ⟨_, _, rfl, h.le⟩
    · exact Or.inr (Or.inr (Or.inr (Or.inr (Or.inr rfl))))
  · exact hq a rfl

theorem topItems_does : ∀ (n : Nat) (st : St) (c : Cont), st.rest.length < n → c.Good PW →
    DoesT (topItems n c) 0 (fun c => c.Good PW) st := by
  intro n
  induction n with
  | zero => intro st c h; omega
  | succ n ih =>
    intro st c hn hc
    have h := Adv.refl st
    unfold DoesT topItems
    refine wp_bind (wp_getSt (wp_ite (fun _ => h.retT (Nat.zero_le _) hc) fun _ => ?_))
    refine wp_bind (h.callC (parseItem_does st) fun r s hr => ?_)
    rcases r with _ | ⟨k, v⟩
    · exact hr.adv.retT (Nat.zero_le _) hc
    · obtain ⟨h, hk, hv⟩ := hr.some k v rfl
      dsimp only
      split
      · rename_i c' hm
        have hm' : mergeWs c v = some c' := by
          split at hm
          · cases hm
          · exact hm
        refine wp_bind (h.mark' fun s h hr' _ => ?_)
        have hl := h.len
        exact h.lastT (ih s _ (by omega) (mergeWs_good hc hm')) (Nat.zero_le _) fun _ h => h
      · refine wp_bind (wrapErr_wp h (fun e he => append_err hc hk hv he) fun r hr => ?_)
        obtain ⟨c', mv⟩ := r
        refine wp_bind (h.note fun s' h hr' => ?_)
        refine wp_bind (h.mark' fun s h hr' _ => ?_)
        have hl := h.len
        exact h.lastT (ih s _ (by omega) (append_good closed_PW hc hv hr)) (Nat.zero_le _) fun _ h => h

theorem topTables_does : ∀ (n : Nat) (st : St) (c : Cont), 4 * st.rest.length + 2 ≤ n → c.Good PW →
    DoesT (topTables n c) 0 (fun c => c.Good PW) st := by
  intro n
  induction n with
  | zero => intro st c h; omega
  | succ n ih =>
    intro st c hn hc
    have h := Adv.refl st
    unfold DoesT topTables
    refine wp_bind (wp_getSt (wp_ite (fun _ => h.retT (Nat.zero_le _) hc) fun _ => ?_))
    refine wp_bind (h.callT ((table_does n).1 st none (by omega)) fun p s h hp => ?_)
    obtain ⟨key, v⟩ := p
    have hl := h.len
    have hrest : ∀ (v : Item) (s : St), Adv st s 1 → v.Good PW → P.wp (do
        let r ← wrapErr (Cont.append true c (some key) v)
        note r.2 .reordered
        topTables n r.1) (Ctr 0 (fun c => c.Good PW) st) (ErrT st) s := by
      intro v s h hv
      refine wp_bind (wrapErr_wp h (fun e he => append_err hc (by rintro _ hk; cases hk; exact hp.1) hv he) fun r hr => ?_)
      obtain ⟨c', mv⟩ := r
      refine wp_bind (h.note fun s' h hr' => ?_)
      have hl := h.len
      exact h.lastT (ih s' _ (by omega) (append_good closed_PW hc hv hr)) (Nat.zero_le _) fun _ h => h
    have hv := hp.2.1
    dsimp only at hv ⊢
    split
    · rename_i tb
      split
      · refine wp_bind (h.callT ((table_does n).2.2.2.1 s tb key (by omega) hv) fun a s' h' ha => ?_)
        exact hrest _ _ (h'.weaken (by omega)) ha
      · exact wp_bind (wp_pure (hrest _ _ (h.weaken (by omega)) hv))
    · exact wp_bind (wp_pure (hrest _ _ (h.weaken (by omega)) hv))

end Tomlkit
