import Verif.Proofs.KeepTables
/-!
# What the parser keeps of tables and documents
-/
namespace Tomlkit

/-- the entries of a table are read: `p` was to be read before -/
structure LoopIs (p : Str) (st s : St) (full : Key) (tb tb' : Tbl) : Prop where
  ready : Ready s
  aot : s.aot = st.aot
  shape : tb' = tb.setCont tb'.cont
  clean : tb'.cont.Clean
  same : st.rest = [] → tb' = tb
  text : ∃ u, p = u ++ pend s ∧ ∀ ia,
    (Ctx.tbl false ia full.asString).text tb'.cont.body = (Ctx.tbl false ia full.asString).text tb.cont.body ++ u

/-- how many parts the name of the enclosing table has -/
def parentLen (parent : Option Key) : Nat := (parent.map fun k => k.parts.length).getD 0

/-- a table is read: `u` is its text -/
structure TableIs (st : St) (parent : Option Key) (p : Key × Item) (s : St) (u : Str) (b : Bool) (k : Key) : Prop where
  ready : Ready s
  aot : s.aot = st.aot
  text : pend st = u ++ pend s
  peek : peekTable st = .ok (b, k) st
  ne : k.parts ≠ []
  entry : parentLen parent < k.parts.length → ∃ k1, p.1 = .single k1 ∧ KeptTable k1 p.2 ∧
    ∀ x : Ctx, x.pfx = parent.map Key.asString → x.entry (.mk (some k1) p.2) = u
  elem : ∀ name, parent = some name → b = true → k.parts.length = name.parts.length → ∀ t, p.2 = .table t →
    t.Clean ∧ t.renderAotElem name.asString = u
  notAot : st.aot = [] → ∀ tb, p.2 = .table tb → tb.isAot = false

/-- the further elements of an array of tables are read -/
structure AotIs (st s : St) (name : Key) (ts l : List Tbl) : Prop where
  ready : Ready s
  aot : s.aot = st.aot
  text : ∃ l' u, l = ts ++ l' ∧ cleanTables l' ∧ pend st = u ++ pend s ∧ aotRender name.asString l' = u

theorem setSep_length (k : Key) (s : Str) : (k.setSep s).parts.length = k.parts.length := by cases k <;> rfl

theorem isChild_length {p c : Key} (h : isChild p c = true) : p.parts.length < c.parts.length := by
  unfold isChild at h
  dsimp only at h
  split at h
  · cases h
  · rename_i hne
    have h := of_decide_eq_true h
    have hl := congrArg List.length h
    simp only [List.length_take, List.length_map] at hl
    rcases Nat.lt_or_ge p.parts.length c.parts.length with h1 | h1
    · exact h1
    · exfalso
      apply hne
      rw [List.take_of_length_le (by simpa using h1)] at h
      exact h

theorem eqv_length {a b : Key} (h : Key.eqv a b = true) : a.parts.length = b.parts.length := by
  cases a <;> cases b <;> simp only [Key.eqv, beq_iff_eq] at h
  · rfl
  · cases h
  · cases h
  · have := congrArg List.length h
    simpa [Key.parts] using this

theorem pend_of_cur {s : St} (h : s.cur = 91) : pend s = s.ext ++ s.rest := by
  obtain ⟨r, hr⟩ := cur_cons h (by decide)
  unfold pend
  rw [if_neg (by rw [hr]; simp)]

theorem pend_end {s : St} (h : s.rest = []) : pend s = [] := if_pos h

theorem setCont_cont (t : Tbl) (c : Cont) : (t.setCont c).cont = c := by cases t; rfl
theorem setCont_setCont (t : Tbl) (c c' : Cont) : (t.setCont c).setCont c' = t.setCont c' := by cases t; rfl
theorem setCont_self (t : Tbl) : t.setCont t.cont = t := by cases t; rfl

theorem LoopIs.refl {st : St} {full : Key} {tb : Tbl} (hr : Ready st) (hc : tb.cont.Clean) : LoopIs (pend st) st st full tb tb :=
  ⟨hr, rfl, (setCont_self tb).symm, hc, fun _ => rfl, [], rfl, fun ia => by rw [List.append_nil]⟩

/-- one more entry before the others -/
theorem LoopIs.cons {p q : Str} {st s s' : St} {full : Key} {tb tb1 tb' : Tbl} {u : Str} (h : LoopIs q s s' full tb1 tb')
    (hne : st.rest ≠ []) (ha : s.aot = st.aot) (hs : tb1 = tb.setCont tb1.cont) (hp : p = u ++ q)
    (ht : ∀ ia, (Ctx.tbl false ia full.asString).text tb1.cont.body = (Ctx.tbl false ia full.asString).text tb.cont.body ++ u) :
    LoopIs p st s' full tb tb' := by
  obtain ⟨v, hv, hvt⟩ := h.text
  refine ⟨h.ready, h.aot.trans ha, ?_, h.clean, fun h0 => absurd h0 hne, u ++ v, ?_, ?_⟩
  · rw [h.shape, hs, setCont_setCont, setCont_cont]
  · rw [hp, hv, List.append_assoc]
  · intro ia
    rw [hvt, ht, List.append_assoc]

theorem mem_drop {α : Type} {l : List α} {n : Nat} {a : α} (h : a ∈ l.drop n) : a ∈ l := List.mem_of_mem_drop h

theorem peekTable_at (st : St) :
    peekTable.wp (fun p s => peekTable st = .ok p s ∧ s = st ∧ p.2.parts ≠ []) (ErrK st) st := by
  have h := wp_eq (peekTable_does st)
  unfold P.wp at *
  rcases hp : peekTable st with ⟨a, s⟩ | ⟨e, s⟩ <;> rw [hp] at h
  · exact h
  · have : s = st := by
      unfold peekTable peeking at hp
      split at hp
      · cases hp
      · cases hp; rfl
    subst this
    exact ⟨List.prefix_refl _, List.suffix_refl _⟩

theorem tables_keep : ∀ n,
    (∀ (st : St) (parent : Option Key), Keeps (parseTable n parent) (fun p s => Ready st → ∃ u b k, TableIs st parent p s u b k) st) ∧
    (∀ (st : St) (full : Key) (tb : Tbl), Keeps (tableLoop n full tb) (fun tb' s => tb.cont.Clean → LoopIs st.rest st s full tb tb') st) ∧
    (∀ (st : St) (full : Key) (tb : Tbl), Keeps (childLoop n full tb)
      (fun tb' s => Ready st → tb.cont.Clean → LoopIs (pend st) st s full tb tb') st) ∧
    (∀ (st : St) (first : Tbl) (name : Key), Keeps (parseAot n first name) (fun v s => Ready st → ∃ l, v = mkAoT l none true ∧
      AotIs st s name [first] l) st) ∧
    (∀ (st : St) (name : Key) (ts : List Tbl), Keeps (aotLoop n name ts) (fun l s => Ready st → AotIs st s name ts l) st) := by
  intro n
  induction n with
  | zero =>
    refine ⟨?_, ?_, ?_, ?_, ?_⟩
    · intro st _; exact (Tr.refl st).raise
    · intro st _ _; exact (Tr.refl st).raise
    · intro st _ _; exact (Tr.refl st).raise
    · intro st _ _; exact (Tr.refl st).raise
    · intro st _ _; exact (Tr.refl st).raise
  | succ n ih =>
    obtain ⟨ihT, ihB, ihC, ihA, ihO⟩ := ih
    refine ⟨?_, ?_, ?_, ?_, ?_⟩
    · intro st parent
      have h := Tr.refl st
      unfold Keeps parseTable
      refine wp_bind (h.call ((parseHeader_keeps st).also (parseHeader_does st)) fun hd s h => ?_)
      dsimp only
      generalize hL : ((parent.map fun k => k.parts.length).getD 0) = L
      refine wp_bind (h.note fun s1 h hr1 he1 ha1 => ?_)
      refine wp_bind (h.call (ihB s1 hd.key _) fun tb s2 h => ?_)
      refine wp_bind (h.lift fun _ _ => wp_bind (wp_getSt ?_))
      -- what is known now
      have hk : ∀ name : Str, (((True ∧ HeaderIs st hd s ∧ Ctr 1 (fun h => h.key.parts ≠ [] ∧
          ∃ k, peekTable st = .ok (h.isAot, k) st ∧ h.key = k.setSep []) st hd s) ∧
          (hd.isAot && hd.key.asString != headerPath parent (hd.key.parts.drop L)) = false) ∧
          ((hd.leaf name).cont.Clean → LoopIs s1.rest s1 s2 hd.key (hd.leaf name) tb)) → Ready st →
          ∃ w k, LeafIs hd tb (hd.text ++ w) ∧ hd.indent ≠ [10] ∧ pend st = (hd.text ++ w) ++ pend s2 ∧ Ready s2 ∧
            s2.aot = st.aot ∧ peekTable st = .ok (hd.isAot, k) st ∧ k.parts.length = hd.key.parts.length ∧ k.parts ≠ [] ∧
            (hd.isAot = true → hd.key.asString = headerPath parent (hd.key.parts.drop L)) ∧
            (∀ p ∈ hd.key.parts, p.dotted = false) ∧ tb.isAot = hd.isAot := by
        rintro name ⟨⟨⟨_, hh, hctr⟩, hnote⟩, hloop⟩ hready
        obtain ⟨_, _, haot, hpne, k, hpk, hkey⟩ := hctr
        have hcl : (hd.leaf name).cont.Clean := ⟨rfl, trivial⟩
        have hl := hloop hcl
        obtain ⟨w, hw, hwt⟩ := hl.text
        have hst : st.rest ≠ [] := by
          rw [hh.text]; cases hd.isAot <;> simp [headOpen]
        refine ⟨w, k, leaf_is hl.shape hl.clean ?_ ?_, ?_, ?_, hl.ready, ?_, hpk, ?_, ?_, ?_, ?_, ?_⟩
        · rcases hh.nl with h1 | h1
          · exact Or.inl h1
          · exact Or.inr (hl.same (by rw [hr1]; exact h1))
        · intro ia
          rw [hwt ia]; rfl
        · rw [hh.indent]
          rcases hready with h1 | h1
          · exact absurd h1 hst
          · exact h1
        · unfold pend
          rw [if_neg hst, hh.text, ← hr1, hw, ← hh.indent]
          simp only [Header.text, List.append_assoc]
          rfl
        · rw [hl.aot, ha1]; exact haot
        · rw [hkey, setSep_length]
        · intro h0
          have := congrArg List.length h0
          rw [hkey] at hpne
          rw [← setSep_length k []] at this
          exact hpne (by simpa using this)
        · intro ha
          rw [ha, Bool.true_and] at hnote
          exact bne_eq_false' hnote
        · obtain ⟨u, hu⟩ := hh.keyIs
          exact fun p hp => (hu.plain p hp).1
        · rw [hl.shape]
          rfl
      have hdrop : ∀ p ∈ hd.key.parts.drop L, p ∈ hd.key.parts := fun p hp => mem_drop hp
      have hlen : (hd.key.parts.drop L).length = hd.key.parts.length - L := List.length_drop
      revert hk h hdrop hlen
      generalize hparts : hd.key.parts.drop L = parts
      intro h hk hdrop hlen
      have hPL : parentLen parent = L := hL
      -- tables that are not implicit parents
      have hrest : ∀ key, (∀ k, parts = [k] → key = .single k) → (∀ k p r, parts ≠ k :: p :: r) →
          P.wp (if hd.isAot && (match s2.aot.getLast? with
            | some top => !Key.eqv hd.key top | none => true) then do
          let a ← parseAot n tb hd.key
          return (key, a)
        else return (key, Item.table tb)) (fun p s => Tr st s (Ready st → ∃ u b k, TableIs st parent p s u b k)) (ErrK st) s2 := by
        intro key hkey hshort
        have hone : ∀ k : Key, k.parts.length = hd.key.parts.length → parentLen parent < k.parts.length →
            ∃ k1, parts = [k1] := by
          intro k hk1 hk2
          rcases parts with _ | ⟨k1, _ | ⟨k2, r⟩⟩
          · simp at hlen; omega
          · exact ⟨k1, rfl⟩
          · exact absurd rfl (hshort k1 k2 r)
        refine wp_ite (fun hc => ?_) fun hc => ?_
        · refine wp_bind (h.call (ihA s2 tb hd.key) fun a s3 h => ?_)
          refine h.ret fun hf hready => ?_
          obtain ⟨hf, ha⟩ := hf
          obtain ⟨w, k, hl, hi, hpend, hr2, haot, hpk, hklen, hkne, hpath, hdot, _⟩ := hk _ hf hready
          obtain ⟨l, rfl, hA⟩ := ha hr2
          obtain ⟨l', u, rfl, hcl, hu, hut⟩ := hA.text
          have hisAot : hd.isAot = true := by
            cases hb : hd.isAot
            · rw [hb] at hc; simp at hc
            · rfl
          rw [mkAoT_parsed]
          refine ⟨hd.text ++ w ++ u, hd.isAot, k, hA.ready, hA.aot.trans haot, ?_, hpk, hkne, ?_, ?_, ?_⟩
          · rw [hpend, hu]; simp
          · intro hlt
            obtain ⟨k1, hk1⟩ := hone k hklen hlt
            refine ⟨k1, hkey k1 hk1, aot_clean (show cleanTables ([tb] ++ l') from ⟨hl.clean, hcl⟩) _ _, ?_⟩
            intro x hx
            have hbase : withPrefix x.pfx k1.orig = hd.key.asString := by
              rw [hpath hisAot, hk1, hx]
              cases parent <;> rfl
            show x.entry (.mk (some k1) (.aot ([tb] ++ l') { trail := [] } none true)) = _
            rw [aot_entry, hbase, aotRender_append, hut, aotRender, aotRender, List.append_nil, hl.elem hisAot]
          · intro nm _ _ _ t ht; cases ht
          · intro _ t ht; cases ht
        · refine h.ret fun hf hready => ?_
          obtain ⟨w, k, hl, hi, hpend, hr2, haot, hpk, hklen, hkne, hpath, hdot, htba⟩ := hk _ hf hready
          refine ⟨hd.text ++ w, hd.isAot, k, hr2, haot, hpend, hpk, hkne, ?_, ?_, ?_⟩
          · intro hlt
            obtain ⟨k1, hk1⟩ := hone k hklen hlt
            refine ⟨k1, hkey k1 hk1, leaf_entry hl k1, ?_⟩
            intro x _
            exact leaf_text hl k1 (hdot k1 (hdrop k1 (by rw [hk1]; simp))) x
          · rintro nm rfl hb hkl t ht
            cases ht
            refine ⟨hl.clean, ?_⟩
            have hnil : parts = [] := by
              have : parentLen (some nm) = nm.parts.length := rfl
              rw [← List.length_eq_zero_iff, hlen]; omega
            have := hpath hb
            rw [hnil] at this
            rw [← hl.elem hb, this]; rfl
          · rintro h0 t ht
            cases ht
            rw [htba]
            rw [haot, h0] at hc
            simpa using hc
      split
      · rename_i k p r
        refine h.ret fun hf hready => ?_
        obtain ⟨w, k0, hl, hi, hpend, hr2, haot, hpk, hklen, hkne, hpath, hdot, htba⟩ := hk _ hf hready
        have hdots : ∀ z ∈ p :: r, z.dotted = false := fun z hz => hdot z (hdrop z (List.mem_cons_of_mem _ hz))
        have hdk : k.dotted = false := hdot k (hdrop k (List.mem_cons_self ..))
        have hbase : hd.isAot = true → hd.key.asString = withPrefix (parent.map Key.asString) k.orig ++
            46 :: joinDot ((p :: r).map SKey.orig) := by
          intro ha
          rw [hpath ha]
          unfold headerPath
          cases parent with
          | none =>
            show joinDot ((k :: p :: r).map SKey.orig) = k.orig ++ _
            rw [List.map_cons, joinDot_cons _ _ (by simp)]
          | some q =>
            show (if (k :: p :: r).isEmpty = true then _ else _) = (q.asString ++ 46 :: k.orig) ++ _
            rw [if_neg (by simp), List.map_cons, joinDot_cons _ _ (by simp)]; simp
        obtain ⟨e1, e2, e3⟩ := chain_text hl hi (p :: r) _ ⟨[], hd.cws, hd.comment, hd.trail⟩
          (hd.isAot && s2.aot.any fun a => Key.eqv (.single k) a) k.key (by simp) (show ([] : Str) ≠ [10] by decide) hdots hbase
        refine ⟨hd.text ++ w, hd.isAot, k0, hr2, haot, hpend, hpk, hkne, ?_, ?_, ?_⟩
        · intro hlt
          refine ⟨k, rfl, e1 k, ?_⟩
          intro x hx
          show x.entry (.mk (some k) (.table _)) = _
          rw [super_entry x k hdk _ e2 (e1 k).clean, hx]
          exact e3
        · rintro nm rfl _ hkl t _
          exfalso
          have : parentLen (some nm) = nm.parts.length := rfl
          simp only [List.length_cons] at hlen
          omega
        · rintro h0 t ht
          cases ht
          rw [haot, h0]
          have : ∀ (h : Header) leaf t a name ks, ks ≠ [] → (h.chain leaf t a name ks).isAot = a := by
            intro h leaf t a name ks hks
            rcases ks with _ | ⟨k, _ | ⟨k2, r⟩⟩
            · exact absurd rfl hks
            · rfl
            · rfl
          rw [this _ _ _ _ _ _ (by simp)]
          simp
      · rename_i hx
        refine hrest _ ?_ (fun k p r => hx k p r)
        rintro k rfl
        rfl
    · intro st full tb
      have h := Tr.refl st
      unfold Keeps tableLoop
      refine wp_bind (wp_getSt (wp_ite (fun hc => ?_) fun hne => ?_))
      · refine h.ret fun _ hcl => ?_
        have hc : st.rest = [] := by simpa [St.atEnd] using hc
        have := LoopIs.refl (st := st) (full := full) (Or.inl hc) hcl
        rw [pend_end hc] at this
        rw [hc]; exact this
      have hne : st.rest ≠ [] := by simpa [St.atEnd] using hne
      refine wp_bind (h.call ((parseItem_keeps st).also (parseItem_does st)) fun r s h => ?_)
      rcases r with _ | ⟨k, v⟩
      · dsimp only
        refine wp_bind (wp_getSt (wp_ite (fun hc => ?_) fun _ => h.fail))
        refine h.last (ihC s full tb) ?_
        rintro tb' s' ⟨_, hi, hd⟩ hl hcl
        obtain ⟨_, h2, h3⟩ := hi.stop rfl
        have := hl (Or.inr h3) hcl
        refine this.cons (u := []) hne hd.adv.aot (setCont_self tb).symm ?_ (by intro ia; rw [List.append_nil])
        rw [pend_of_cur hc, h2]; rfl
      · dsimp only
        split
        · rename_i c hm
          refine h.last (ihB s full _) ?_
          rintro tb' s' ⟨_, hi, hd⟩ hl hcl
          obtain ⟨h1, h2⟩ := mergeWs_text hcl hm
          have hv : ∃ u, Ate st s u ∧ u = v.asString := by
            have hws : v.isWhitespace = true := by
              unfold mergeWs at hm
              split at hm
              · rfl
              · cases hm
            cases k with
            | none => exact ⟨_, (hi.blank v rfl).1, rfl⟩
            | some k =>
              obtain ⟨key, u, sep, hp⟩ := hi.pair k v rfl
              have := hp.simple
              have h0 : v.isWhitespace = false := by cases v <;> first | rfl | cases this
              rw [h0] at hws; cases hws
          obtain ⟨u, hu, rfl⟩ := hv
          have hl := hl (by rw [setCont_cont]; exact h1)
          refine hl.cons hne (hd.some k v rfl).1.aot (by rw [setCont_cont]) hu ?_
          intro ia
          rw [setCont_cont]; exact h2 _
        · refine wp_bind (h.lift fun r hr => ?_)
          obtain ⟨t', mv⟩ := r
          refine wp_bind (h.note fun s2 h hr2 he2 ha2 => ?_)
          refine h.last (ihB s2 full t') ?_
          rintro tb' s' ⟨⟨_, hi, hd⟩, _⟩ hl hcl
          obtain ⟨c, hc1, rfl⟩ := rawAppend_inv hr
          obtain ⟨h1, u, hu, h2⟩ := append_line hcl hi hc1
          have hl := hl (by rw [setCont_cont]; exact h1)
          refine hl.cons hne (ha2.trans (hd.some k v rfl).1.aot) (by rw [setCont_cont]) (by rw [hr2]; exact hu) ?_
          intro ia
          rw [setCont_cont]; exact h2 _ rfl
    · intro st full tb
      have h := Tr.refl st
      unfold Keeps childLoop
      refine wp_bind (wp_getSt (wp_ite (fun hc => ?_) fun hne => ?_))
      · exact h.ret fun _ hr hcl => LoopIs.refl hr hcl
      have hne : st.rest ≠ [] := by simpa [St.atEnd] using hne
      refine wp_bind (wp_mono (peekTable_at st) ?_ ?_)
      · rintro ⟨b, next⟩ s ⟨hpk, rfl, hnext⟩
        dsimp only
        refine wp_ite (fun hch => ?_) fun _ => h.ret fun _ hr hcl => LoopIs.refl hr hcl
        refine wp_bind (h.call (ihT s (some full)) fun p s1 h => ?_)
        obtain ⟨k, v⟩ := p
        dsimp only
        refine wp_bind (h.lift fun r hr => ?_)
        obtain ⟨t', mv⟩ := r
        refine wp_bind (h.note fun s2 h hr2 he2 ha2 => ?_)
        refine h.last (ihC s2 full t') ?_
        rintro tb' s' ⟨⟨_, htab⟩, hmv⟩ hl hready hcl
        obtain ⟨u, b', k', ht⟩ := htab hready
        have hpk' := ht.peek
        rw [hpk] at hpk'
        simp only [Res.ok.injEq, Prod.mk.injEq, and_true] at hpk'
        obtain ⟨rfl, rfl⟩ := hpk'
        obtain ⟨k1, hk1, hE, htx⟩ := ht.entry (isChild_length hch)
        simp only at hk1 hE htx hmv
        subst hk1 hmv
        obtain ⟨c, hc1, rfl⟩ := rawAppend_inv hr
        have happ := append_table hcl hE.clean hc1
        have hp2 : pend s2 = pend s1 := by unfold pend; rw [hr2, he2]
        have hr2' : Ready s2 := by have := ht.ready; unfold Ready at *; rw [hr2, he2]; exact this
        have hl := hl hr2' (by rw [setCont_cont]; exact happ.clean)
        rw [hp2] at hl
        refine hl.cons hne (ha2.trans ht.aot) (by rw [setCont_cont]) ht.text ?_
        intro ia
        rw [setCont_cont, happ.text, htx _ rfl]
      · exact fun _ _ he => he
    · intro st first name
      have h := Tr.refl st
      unfold Keeps parseAot
      refine wp_bind ?_
      show P.wp _ _ _ ({ st with aot := st.aot ++ [name] } : St)
      have h : Tr st ({ st with aot := st.aot ++ [name] } : St) True := h.same
      refine wp_bind (h.call (ihO _ name [first]) fun l s h => ?_)
      refine wp_bind (wp_modify (f := fun st => { st with aot := st.aot.dropLast }) ?_)
      refine (show Tr st { s with aot := s.aot.dropLast } _ from h.same).ret ?_
      rintro ⟨_, hl⟩ hr
      have hA := hl hr
      refine ⟨l, rfl, hA.ready, ?_, hA.text⟩
      show s.aot.dropLast = st.aot
      rw [hA.aot]; simp
    · intro st name ts
      have h := Tr.refl st
      have hnil : Ready st → AotIs st st name ts ts := fun hr =>
        ⟨hr, rfl, [], [], (List.append_nil _).symm, trivial, rfl, rfl⟩
      unfold Keeps aotLoop
      refine wp_bind (wp_getSt (wp_ite (fun hc => h.ret fun _ => hnil) fun hne => ?_))
      refine wp_bind (wp_mono (peekTable_at st) ?_ ?_)
      · rintro ⟨b, next⟩ s ⟨hpk, rfl, hnext⟩
        dsimp only
        refine wp_ite (fun hch => ?_) fun _ => h.ret fun _ => hnil
        simp only [Bool.and_eq_true] at hch
        obtain ⟨rfl, heq⟩ := hch
        refine wp_bind (h.call (ihT s (some name)) fun p s1 h => ?_)
        obtain ⟨k, v⟩ := p
        split
        · rename_i _ t hkv
          cases hkv
          refine h.last (ihO s1 name _) ?_
          rintro l s' ⟨_, htab⟩ hl hready
          obtain ⟨u, b', k', ht⟩ := htab hready
          have hpk' := ht.peek
          rw [hpk] at hpk'
          simp only [Res.ok.injEq, Prod.mk.injEq, and_true] at hpk'
          obtain ⟨rfl, rfl⟩ := hpk'
          obtain ⟨hcl, htx⟩ := ht.elem name rfl rfl (eqv_length heq) t rfl
          have hA := hl ht.ready
          obtain ⟨l', u', rfl, h1, h2, h3⟩ := hA.text
          refine ⟨hA.ready, hA.aot.trans ht.aot, t :: l', u ++ u', by simp, ⟨hcl, h1⟩, ?_, ?_⟩
          · rw [ht.text, h2, List.append_assoc]
          · rw [aotRender, htx, h3]
        · exact h.raise
      · exact fun _ _ he => he

/-! ### documents -/

theorem topItems_keep : ∀ (n : Nat) (st : St) (c : Cont), Keeps (topItems n c) (fun c' s => st.ext = [] → c.Clean →
    Ready s ∧ s.aot = st.aot ∧ c'.Clean ∧ ∃ u, st.rest = u ++ pend s ∧ Ctx.top.text c'.body = Ctx.top.text c.body ++ u) st := by
  intro n
  induction n with
  | zero => intro st c; exact (Tr.refl st).raise
  | succ n ih =>
    intro st c
    have h := Tr.refl st
    unfold Keeps topItems
    refine wp_bind (wp_getSt (wp_ite (fun hc => ?_) fun _ => ?_))
    · refine h.ret fun _ he hcl => ⟨Or.inr (by rw [he]; decide), rfl, hcl, [], ?_, by rw [List.append_nil]⟩
      unfold pend
      rw [he]
      split
      · rename_i h0; rw [h0]; rfl
      · rfl
    refine wp_bind (h.call ((parseItem_keeps st).also (parseItem_does st)) fun r s h => ?_)
    rcases r with _ | ⟨k, v⟩
    · refine h.ret ?_
      rintro ⟨_, hi, hd⟩ _ hcl
      obtain ⟨h1, h2, h3⟩ := hi.stop rfl
      refine ⟨Or.inr h3, hd.adv.aot, hcl, [], ?_, by rw [List.append_nil]⟩
      rw [pend_of_cur h1, h2]; rfl
    · dsimp only
      split
      · rename_i c' hm
        have hm : mergeWs c v = some c' := by
          revert hm
          split
          · intro h; cases h
          · exact fun h => h
        refine wp_bind (h.mark fun s2 h hr2 he2 ha2 => ?_)
        refine h.last (ih s2 c') ?_
        rintro c2 s' ⟨_, hi, hd⟩ hl _ hcl
        obtain ⟨h1, h2⟩ := mergeWs_text hcl hm
        have hv : Ate st s v.asString := by
          have hws : v.isWhitespace = true := by
            unfold mergeWs at hm
            split at hm
            · rfl
            · cases hm
          cases k with
          | none => exact (hi.blank v rfl).1
          | some k =>
            obtain ⟨key, u, sep, hp⟩ := hi.pair k v rfl
            have := hp.simple
            have h0 : v.isWhitespace = false := by cases v <;> first | rfl | cases this
            rw [h0] at hws; cases hws
        obtain ⟨q1, q2, q3, u, hu, hut⟩ := hl he2 h1
        refine ⟨q1, q2.trans (ha2.trans (hd.some k v rfl).1.aot), q3, v.asString ++ u, ?_, ?_⟩
        · rw [List.append_assoc, ← hu, hr2]; exact hv
        · rw [hut, h2, List.append_assoc]
      · refine wp_bind (h.wrapErr fun r hr => ?_)
        obtain ⟨c', mv⟩ := r
        refine wp_bind (h.note fun s1 h hr1 he1 ha1 => ?_)
        refine wp_bind (h.mark fun s2 h hr2 he2 ha2 => ?_)
        refine h.last (ih s2 c') ?_
        rintro c2 s' ⟨⟨_, hi, hd⟩, _⟩ hl _ hcl
        obtain ⟨h1, w, hw, h2⟩ := append_line hcl hi hr
        obtain ⟨q1, q2, q3, u, hu, hut⟩ := hl he2 h1
        refine ⟨q1, q2.trans (ha2.trans (ha1.trans (hd.some k v rfl).1.aot)), q3, w ++ u, ?_, ?_⟩
        · rw [List.append_assoc, ← hu, hr2, hr1]; exact hw
        · rw [hut, h2 Ctx.top trivial, List.append_assoc]

theorem topTables_keep : ∀ (n : Nat) (st : St) (c : Cont), Keeps (topTables n c) (fun c' _ => Ready st → st.aot = [] → c.Clean →
    c'.Clean ∧ Ctx.top.text c'.body = Ctx.top.text c.body ++ pend st) st := by
  intro n
  induction n with
  | zero => intro st c; exact (Tr.refl st).raise
  | succ n ih =>
    intro st c
    have h := Tr.refl st
    unfold Keeps topTables
    refine wp_bind (wp_getSt (wp_ite (fun hc => ?_) fun _ => ?_))
    · have hc : st.rest = [] := by simpa [St.atEnd] using hc
      refine h.ret fun _ _ _ hcl => ⟨hcl, ?_⟩
      rw [pend_end hc, List.append_nil]
    refine wp_bind (h.call ((tables_keep n).1 st none) fun p s h => ?_)
    obtain ⟨key, v⟩ := p
    dsimp only
    have hrest : ∀ (s1 : St) (v' : Item) (F : Prop), Tr st s1 F → (F → Ready st → st.aot = [] → v' = v ∧ s1 = s ∧
        ∃ u b k, TableIs st none (key, v) s u b k) → P.wp (do
          let r ← wrapErr (Cont.append true c (some key) v')
          note r.2 .reordered
          topTables n r.1) (fun c' s => Tr st s (Ready st → st.aot = [] → c.Clean →
            c'.Clean ∧ Ctx.top.text c'.body = Ctx.top.text c.body ++ pend st)) (ErrK st) s1 := by
      intro s1 v' F h hF
      refine wp_bind (h.wrapErr fun r hr => ?_)
      obtain ⟨c', mv⟩ := r
      refine wp_bind (h.note fun s2 h hr2 he2 ha2 => ?_)
      refine h.last (ih s2 c') ?_
      rintro c2 s' ⟨hf, hmv⟩ hl hready haot hcl
      obtain ⟨rfl, rfl, u, b, k, ht⟩ := hF hf hready haot
      obtain ⟨k1, hk1, hE, htx⟩ := ht.entry (by
        have := ht.ne
        show 0 < k.parts.length
        exact List.length_pos_iff.2 this)
      simp only at hk1 hE htx hmv
      subst hk1 hmv
      have happ := append_table hcl hE.clean hr
      have hp2 : pend s2 = pend s1 := by unfold pend; rw [hr2, he2]
      have hr2' : Ready s2 := by have := ht.ready; unfold Ready at *; rw [hr2, he2]; exact this
      obtain ⟨q1, q2⟩ := hl hr2' (ha2.trans (ht.aot.trans haot)) happ.clean
      refine ⟨q1, ?_⟩
      rw [q2, happ.text, htx _ rfl, hp2, ht.text, List.append_assoc]
    have hdead : ∀ tb, v = .table tb → tb.isAot = true → ∀ Q : Item → St → Prop,
        (∀ v' s1, Tr st s1 ((True ∧ (Ready st → ∃ u b k, TableIs st none (key, v) s u b k)) ∧ True) → Q v' s1) →
        P.wp (parseAot n tb key) Q (ErrK st) s := by
      intro tb hv ha Q hq
      refine h.call ((tables_keep n).2.2.2.1 s tb key) fun a s1 h1 => ?_
      exact hq _ _ (h1.imp fun hf => ⟨hf.1, trivial⟩)
    split
    · rename_i tb
      refine wp_ite (fun ha => ?_) fun _ => ?_
      · refine wp_bind (hdead tb rfl ha _ fun v' s1 h1 => ?_)
        refine hrest s1 v' _ h1 ?_
        rintro ⟨⟨_, hf⟩, _⟩ hready haot
        obtain ⟨u, b, k, ht⟩ := hf hready
        have := ht.notAot haot tb rfl
        rw [this] at ha; cases ha
      · exact wp_bind (wp_pure (hrest s _ _ h fun hf hready _ => ⟨rfl, rfl, hf.2 hready⟩))
    · exact wp_bind (wp_pure (hrest s _ _ h fun hf hready _ => ⟨rfl, rfl, hf.2 hready⟩))

theorem stopParsing_at (b : List Entry) : b.stopParsingEntries = b.map Entry.stopParsing := by
  induction b with
  | nil => rfl
  | cons e r ih =>
    show e.stopParsing :: r.stopParsingEntries = _
    rw [ih]; rfl

theorem isSuper_stop (t : Tbl) : t.stopParsing.isSuper = t.isSuper := by
  rcases t with ⟨⟨b, m, d, p, tk⟩, t, a, s, n, dd⟩
  unfold Tbl.isSuper
  show (match s with
    | some b => b
    | none => match d with
      | [k] => match mapGet k m with
        | some [i] => ((b.stopParsingEntries[i]?).map fun e : Entry => e.v.isTableLike).getD false
        | _ => false
      | _ => false) = (match s with
    | some b => b
    | none => match d with
      | [k] => match mapGet k m with
        | some [i] => ((b[i]?).map fun e : Entry => e.v.isTableLike).getD false
        | _ => false
      | _ => false)
  have : ∀ i : Nat, ((b.stopParsingEntries[i]?).map fun e : Entry => e.v.isTableLike) = (b[i]?).map fun e : Entry => e.v.isTableLike := by
    intro i
    rw [stopParsing_at, List.getElem?_map]
    cases b[i]? with
    | none => rfl
    | some e =>
      rcases e with ⟨k, v⟩
      cases v <;> rfl
  simp only [this]

mutual
theorem Item.stopParsing_text : (v : Item) → v.stopParsing.asString = v.asString ∧ v.stopParsing.isPlain = v.isPlain
  | .table tb => ⟨by
      show tb.stopParsing.asString = tb.asString
      exact (Tbl.stopParsing_text tb).1, rfl⟩
  | .aot ts t n p => ⟨by
      show aotStr ts.stopParsingTables = aotStr ts
      exact (stopParsingTables_text ts).1, rfl⟩
  | .ws .. => ⟨rfl, rfl⟩ | .comment _ => ⟨rfl, rfl⟩ | .integer .. => ⟨rfl, rfl⟩ | .float .. => ⟨rfl, rfl⟩
  | .bool .. => ⟨rfl, rfl⟩ | .datetime .. => ⟨rfl, rfl⟩ | .date .. => ⟨rfl, rfl⟩ | .time .. => ⟨rfl, rfl⟩
  | .str .. => ⟨rfl, rfl⟩ | .array .. => ⟨rfl, rfl⟩ | .inline .. => ⟨rfl, rfl⟩ | .null _ => ⟨rfl, rfl⟩
theorem Tbl.stopParsing_text : (t : Tbl) → t.stopParsing.asString = t.asString ∧ (∀ k pfx, t.stopParsing.render k pfx = t.render k pfx) ∧
    (∀ key, t.stopParsing.renderAotElem key = t.renderAotElem key)
  | .mk c t a s n d => by
    obtain ⟨h1, h2, h3, h4⟩ := Cont.stopParsing_text c
    refine ⟨h1, ?_, ?_⟩
    · intro k pfx
      show tableHeader k pfx (.mk c.stopParsing t a s n d) ++ c.stopParsing.renderBody _ _ (tableKeyText k pfx (.mk c t a s n d)) =
        tableHeader k pfx (.mk c t a s n d) ++ c.renderBody _ _ (tableKeyText k pfx (.mk c t a s n d))
      rw [h2]
      congr 1
      have hsup : Tbl.isSuper (.mk c.stopParsing t a s n d) = Tbl.isSuper (.mk c t a s n d) := isSuper_stop (.mk c t a s n d)
      unfold tableHeader showsHeader
      simp only [Tbl.cont_mk, h3, h4, hsup]
      rfl
    · intro key
      show aotHeader key t ++ c.stopParsing.renderBody false true key = aotHeader key t ++ c.renderBody false true key
      rw [h2]
theorem Cont.stopParsing_text : (c : Cont) → c.stopParsing.asString = c.asString ∧
    (∀ kd ia key, c.stopParsing.renderBody kd ia key = c.renderBody kd ia key) ∧
    c.stopParsing.body.any (fun e => e.v.isPlain) = c.body.any (fun e => e.v.isPlain) ∧ c.stopParsing.dict = c.dict
  | .mk b m d p tk => by
    obtain ⟨h1, h2, h3⟩ := stopParsingEntries_text b
    exact ⟨h1, h2, h3, rfl⟩
theorem stopParsingEntries_text : (b : List Entry) → bodyStr b.stopParsingEntries = bodyStr b ∧
    (∀ kd ia key, tableBodyStr kd ia key b.stopParsingEntries = tableBodyStr kd ia key b) ∧
    b.stopParsingEntries.any (fun e => e.v.isPlain) = b.any (fun e => e.v.isPlain)
  | [] => ⟨rfl, fun _ _ _ => rfl, rfl⟩
  | e :: r => by
    obtain ⟨h1, h2⟩ := Entry.stopParsing_text e
    obtain ⟨g1, g2, g3⟩ := stopParsingEntries_text r
    refine ⟨?_, ?_, ?_⟩
    · show e.stopParsing.render none none ++ bodyStr r.stopParsingEntries = _
      rw [h1, g1]; rfl
    · intro kd ia key
      show e.stopParsing.render _ _ ++ tableBodyStr kd ia key r.stopParsingEntries = e.render _ _ ++ tableBodyStr kd ia key r
      rw [g2, h1]
      congr 2
      rcases e with ⟨k, v⟩
      cases v <;> try rfl
      rename_i tb
      show (if (tb.stopParsing.isSuper && isDottedKey k && (ia || !kd)) = true then none else some key) = 
        (if (tb.isSuper && isDottedKey k && (ia || !kd)) = true then none else some key)
      rw [isSuper_stop]
    · show (e.stopParsing.v.isPlain || r.stopParsingEntries.any _) = _
      rw [h2, g3]; rfl
theorem Entry.stopParsing_text : (e : Entry) → (∀ tp sp, e.stopParsing.render tp sp = e.render tp sp) ∧
    e.stopParsing.v.isPlain = e.v.isPlain
  | .mk key v => by
    obtain ⟨h1, h2⟩ := Item.stopParsing_text v
    refine ⟨?_, h2⟩
    intro tp sp
    cases key with
    | none => exact h1
    | some k =>
      cases v with
      | table tb =>
        exact (Tbl.stopParsing_text tb).2.1 k tp
      | aot ts t n p => exact (stopParsingTables_text ts).2 _
      | _ => rfl
theorem stopParsingTables_text : (ts : List Tbl) → aotStr ts.stopParsingTables = aotStr ts ∧
    (∀ key, aotRender key ts.stopParsingTables = aotRender key ts)
  | [] => ⟨rfl, fun _ => rfl⟩
  | t :: r => by
    obtain ⟨h1, _, h3⟩ := Tbl.stopParsing_text t
    obtain ⟨g1, g2⟩ := stopParsingTables_text r
    refine ⟨?_, ?_⟩
    · show t.stopParsing.asString ++ aotStr r.stopParsingTables = _
      rw [h1, g1]; rfl
    · intro key
      show t.stopParsing.renderAotElem key ++ aotRender key r.stopParsingTables = _
      rw [h3, g2]; rfl
end


/-- a document that is read without loss is written as it was read -/
theorem parse_dumps {s : Str} {c : Cont} (h : parseLog s = .ok (c, [])) : dumps c = s := by
  have hdoc : (parseDoc s).wp (fun c st => st.loss = [] → dumps c = s) (fun _ _ => True) (.init s) := by
    unfold parseDoc
    refine wp_bind ?_
    have h := Tr.refl (St.init s)
    refine wp_mono (Q := _) (E := ErrK (St.init s)) (h.call (topItems_keep (docFuel s) (.init s) (.empty true)) fun c1 s1 h1 => h1) ?_
      fun _ _ _ => trivial
    intro c1 s1 h1
    refine wp_bind ?_
    refine wp_mono (Q := _) (E := ErrK (St.init s)) (h1.call (topTables_keep (docFuel s) s1 c1) fun c2 s2 h2 => h2) ?_
      fun _ _ _ => trivial
    intro c2 s2 h2
    refine wp_pure ?_
    intro hl
    obtain ⟨⟨_, hf⟩, hg⟩ := h2.fact hl
    obtain ⟨q1, q2, q3, u, hu, hut⟩ := hf rfl ⟨rfl, trivial⟩
    obtain ⟨_, r2⟩ := hg q1 q2 q3
    show c2.stopParsing.asString = s
    rw [(Cont.stopParsing_text c2).1]
    rcases c2 with ⟨b, m, d, p, tk⟩
    show bodyStr b = s
    rw [bodyStr_ctx]
    simp only [Cont.body_mk] at r2
    rw [r2, hut]
    have : (Ctx.top.text (Cont.empty true).body) = [] := rfl
    rw [this, List.nil_append, ← hu]; rfl
  unfold parseLog at h
  unfold P.wp at hdoc
  rcases hr : parseDoc s (.init s) with ⟨a, st⟩ | ⟨e, st⟩ <;> rw [hr] at h hdoc
  · simp only [Except.ok.injEq, Prod.mk.injEq] at h
    obtain ⟨rfl, hl⟩ := h
    exact hdoc hl
  · cases h

end Tomlkit
