import Verif.Proofs.InTables
/-!
# The lines of a table that was read, and other lines in their place
-/
namespace Tomlkit
open _root_.Spec Tomlkit.Spec

theorem flat_entry {e : Entry} (h : e.v.isTableLike = false) (ia : Bool) (key : Str) : (Ctx.tbl false ia key).entry e = Ctx.top.entry e := by
  obtain ⟨k, v⟩ := e
  rcases k with _ | k
  · rfl
  rcases v with _ | _ | _ | _ | _ | _ | _ | _ | _ | _ | _ | tb | ⟨ts, t, nm, p⟩ | _ <;> first | rfl | cases h

theorem flat_text {b : List Entry} (h : ∀ e ∈ b, e.v.isTableLike = false) (ia : Bool) (key : Str) : (Ctx.tbl false ia key).text b = entsStr none b := by
  rw [← bodyStr_ents, bodyStr_ctx]
  unfold Ctx.text
  induction b with
  | nil => rfl
  | cons e r ih => rw [List.flatMap_cons, List.flatMap_cons, flat_entry (h e (by simp)), ih fun x hx => h x (by simp [hx])]

theorem foldE_all {α : Type} {f : Unit → α → Except Err Unit} : ∀ {l : List α}, foldE f () l = .ok () → ∀ a ∈ l, f () a = .ok ()
  | [], _ => fun a ha => by cases ha
  | a :: r, h => by
    rw [foldE] at h
    rcases hx : f () a with e | ⟨⟩ <;> rw [hx] at h
    · cases h
    · intro x hx'
      rcases List.mem_cons.1 hx' with rfl | hm
      · exact hx
      · exact foldE_all h x hm

theorem get_mem_map {k : Str} {is : List Nat} : ∀ {m : List (Str × List Nat)}, mapGet k m = some is → k ∈ m.map (·.1)
  | [], h => by cases h
  | (k', v) :: r, h => by
    unfold mapGet at h
    split at h
    · rename_i hk
      rw [beq_iff_eq] at hk
      subst hk; simp
    · rw [List.map_cons, List.mem_cons]
      exact .inr (get_mem_map h)

theorem has_of_flat {c : Cont} (hw : c.WF) (hf : ∀ e ∈ c.body, e.v.isTableLike = false) {k : Str} {is : List Nat} (hm : mapGet k c.map = some is) : ∃ i, is = [i] := by
  obtain ⟨i, _, _, h, _⟩ := single_of_plain hw (flat_holds hf) hm
  exact ⟨i, h⟩

/-- the names of a container whose tables are those of another can be read -/
theorem Over.validate {c t d c2 d2 : Cont} (h : Over c t d) (h2 : Over c2 t d2) (hg2 : d2.Good PW) (hw : c2.WF) (hf : ∀ e ∈ c2.body, e.v.isTableLike = false)
    (hv : d.validateAll = .ok ()) : d2.validateAll = .ok () := by
  unfold Cont.validateAll at hv ⊢
  refine foldE_unit fun k hk => ?_
  rcases hm : mapGet k c2.map with _ | is
  · have h0 := mem_map_get hk
    rw [h2.below k hm] at h0
    rcases ht : mapGet k t.map with _ | is
    · rw [ht] at h0; cases h0
    · have hc : mapGet k c.map = none := by
        rcases hx : mapGet k c.map with _ | js
        · rfl
        · rw [(h.line k js hx).2] at ht; cases ht
      have hd : k ∈ d.map.map (·.1) := get_mem_map (by rw [h.below k hc, ht]; rfl)
      have hh := foldE_all hv k hd
      rcases hx : Cont.has (fuelFor d (.null {})) d k with e | x
      · rw [hx] at hh; cases hh
      · rw [h.has _ hc, ← h2.has _ hm] at hx
        rw [has_any hg2 hx]; rfl
  · obtain ⟨i, rfl⟩ := has_of_flat hw hf hm
    have hx : Cont.has 1 d2 k = .ok true := by
      rw [Cont.has, (h2.line k _ hm).1]
    rw [has_any hg2 hx]; rfl

/-- where a run ends: as the other, or at the end of the text -/
def Lands (s s' : St) : Prop := (s.rest = [] ∧ s'.rest = [] ∧ s'.aot = s.aot) ∨ ∃ lg, s' = s.log lg

/-- the loop over the entries of a table stops at the same place when other lines come before -/
theorem tableLoop_again {n : Nat} {c c' : Cont} {st s : St} (h : topItems n c st = .ok c' s) (hl : s.loss = []) (he : st.ext = []) (h0 : st.loss = []) (ha : s.aot = [])
    (h91 : s.cur = 91) (m : Nat) (full : Key) (tb : Tbl) (e : Str) (lg : List Loss) :
    tableLoop (m + 1) full tb ⟨pend s, e, [], lg⟩ = childLoop m full tb (s.log lg) := by
  have hq : pend s ≠ [] ∧ parseItem ⟨pend s, e, [], lg⟩ = .ok none (s.log lg) := by
    rcases topItems_halt n h hl he h0 with ⟨h1, h2⟩ | ⟨st0, g1, g2, g3, g4⟩
    · obtain ⟨r, hr⟩ := cur_cons h91 (by decide)
      have hp : pend s = 91 :: r := by
        unfold pend
        rw [h1, hr]; rfl
      rw [hp]
      refine ⟨by simp, ?_⟩
      obtain ⟨r', e', a, l⟩ := s
      simp only at h1 ha hr
      subst h1 ha hr
      rfl
    · have hi := keeps_fact (parseItem_keeps st0) g4 hl
      obtain ⟨i1, i2, i3⟩ := hi.stop rfl
      have haot : st0.aot = [] := (parseItem_aot g4).symm.trans ha
      have hp : pend s = st0.rest := by rw [pend_of_cur i1, i2]
      have hst : (⟨pend s, [], [], lg⟩ : St) = st0.log lg := by
        rw [hp]
        obtain ⟨r, e, a, l⟩ := st0
        simp only at g1 haot
        subst g1 haot
        rfl
      refine ⟨fun hx => ?_, ?_⟩
      · rw [hp] at hx
        have : st0.atEnd = true := by unfold St.atEnd; rw [hx]; rfl
        rw [this] at g3; cases g3
      · rw [parseItem_ext _ e [], hst]
        have hb := blind_parseItem st0 lg
        rw [g4] at hb
        generalize parseItem (st0.log lg) = y at hb ⊢
        cases hb with
        | ok x s d h =>
          rw [hl, g2] at h
          have : d = [] := h.symm
          subst this
          rw [List.append_nil]
  rw [tableLoop, getSt_bind, if_neg (fun hx => hq.1 (atEnd_iff.1 hx))]
  refine (bind_step hq.2).trans ?_
  dsimp only
  rw [getSt_bind, if_pos (show (s.log lg).cur = 91 from h91)]

theorem follow_less {α : Type} {p q : P α} (h : Steady p q) {st : St} {F : α → St → Prop} (hF : Follow (q st) F) : Follow (p st) F := by
  rcases h st with h | h
  · exact .inl h
  · rw [← h]; exact hF

/-- **The entries of a table that was read**: its lines, its sub-tables, and that these are read in the same way below any other lines. -/
theorem inside {n : Nat} {full : Key} {tb tb1 : Tbl} {st s : St} (htb : tb.cont = .empty true) (h : tableLoop n full tb st = .ok tb1 s) (hl : s.loss = [])
    (hst : st.loss = []) (haot : st.aot = []) (hn : NoLoneCr st.rest) (hd : ∀ e ∈ tb1.cont.body, isDottedKey e.key = false) :
    ∃ c t Tx v, Over c t tb1.cont ∧ tb1 = tb.setCont tb1.cont ∧ Inv c True ∧ (Tx ≠ [] → PreShut c.body) ∧ t.Good PW ∧ tb1.cont.Good PW ∧
      (∀ e ∈ t.body, e.v.isTableLike = true) ∧ Ready s ∧ s.aot = [] ∧ st.rest = entsStr none c.body ++ Tx ∧ Tx = v ++ pend s ∧
      (∀ ia, (Ctx.tbl false ia full.asString).text t.body = v) ∧
      ∀ X l cs, FLines X Tx l cs → Solids l → (∀ k, mapGet k t.map ≠ none → k ∉ l.map Known.key) → ∀ n' e,
        Follow (tableLoop n' full tb ⟨X, e, [], []⟩) fun tb2 s' => ∃ c2, FBody c2 l cs ∧ c2.Good PW ∧ Over c2 t tb2.cont ∧ tb2 = tb.setCont tb2.cont ∧
          tb2.cont.Good PW ∧ Lands s s' := by
  obtain ⟨c, s1, q1, hl1, q2⟩ := tableLoop_top n h hl hst
  rw [haot, htb] at q1
  obtain ⟨hR, ha, hcl, u, hu, htx⟩ := keeps_fact (topItems_keep _ _ _) q1 hl1 rfl ⟨rfl, trivial⟩
  have ha : s1.aot = [] := ha
  have hempty : Inv (.empty true) ((St.mk st.rest [] [] []).rest = []) :=
    ⟨Cont.WF_empty _, rfl, rfl, .inl (by intro e he; cases he), (by intro e he; cases he), (by intro e he; cases he), (by intro e he; cases he), rfl⟩
  have hg := topItems_good _ q1 hl1 (Cont.good_empty closed_PW)
  have hno : ¬ HasD tb1.cont := by
    rintro ⟨e, he, _, h1⟩
    rw [hd e he] at h1
    cases h1
  have hinv : Inv c True ∧ (s1.rest ≠ [] → PreShut c.body) := by
    rcases topItems_lines _ q1 hl1 rfl hn hempty with ⟨h1, h2⟩ | ⟨h1, h2⟩ | ⟨h1, h2⟩
    · exfalso
      rcases q2 with ⟨_, _, _, g⟩ | ⟨_, m, g⟩
      · rw [g, setCont_cont] at hno; exact hno h1
      · exact hno (childLoop_hasD _ g hl (by rw [setCont_cont]; exact h2) (by rw [setCont_cont]; exact h1))
    · exact ⟨h1.imp fun h => h.elim, fun _ => h1.ends.resolve_right fun h => h.1⟩
    · exact ⟨h1, fun h => absurd h2 h⟩
  obtain ⟨hi, hshut⟩ := hinv
  have hflat := hi.flat
  have hO0 := Over.start hi.tabs
  rw [hi.parsed] at hO0
  have hs : st.rest = entsStr none c.body ++ pend s1 := by
    have : st.rest = u ++ pend s1 := hu
    rw [← bodyStr_ents, bodyStr_ctx, htx]
    exact this
  have hpend : pend s1 ≠ [] → PreShut c.body := fun h0 => hshut fun h1 => h0 (by unfold pend; rw [if_pos h1])
  have hrun : ∀ X l cs, FLines X (pend s1) l cs → Solids l → ∀ n' e, ∃ n1 c2 e2 lg, tableLoop (n' + (X.length + 1)) full tb ⟨X, e, [], []⟩ =
      tableLoop (n1 + 1) full (tb.setCont c2) ⟨pend s1, e2, [], lg⟩ ∧ FBody c2 l cs ∧ c2.Good PW := by
    intro X l cs hX hsol n' e
    obtain ⟨n1, c2, e2, lg, r1, r2, r3, _, r5⟩ := flines_read (sink_table full tb) hX hsol (n' + (X.length + 1)) (Cont.empty true) [] [] e [] []
      (by omega) trivial (Cont.good_empty closed_PW) fbody_empty (by intro x hx; cases hx) (by simp)
    simp only [List.nil_append] at r2
    obtain ⟨m, rfl⟩ : ∃ m, n1 = m + 1 := ⟨n1 - 1, by omega⟩
    refine ⟨m, c2, e2, lg, ?_, r2, r5⟩
    rw [← htb, setCont_self] at r1
    exact r1
  rcases q2 with ⟨g1, g2, g3, rfl⟩ | ⟨g1, m, g⟩
  · have hp1 : pend s1 = [] := by unfold pend; rw [if_pos g1]
    have hp : pend s = [] := by unfold pend; rw [if_pos g2]
    rw [hp1] at hrun hs hpend
    refine ⟨c, .empty true, [], [], by rw [setCont_cont]; exact hO0, by rw [setCont_cont], hi, hpend, Cont.good_empty closed_PW, by rw [setCont_cont]; exact hg,
      (by intro e he; cases he), .inl g2, g3.trans haot, hs, by rw [hp]; rfl, fun _ => rfl, fun X l cs hX hsol hdis n' e => ?_⟩
    refine follow_less ((tables_steady n' (n' + (X.length + 1)) (by omega)).2.1 _ _) ?_
    obtain ⟨n1, c2, e2, lg, r1, r2, r5⟩ := hrun X l cs hX hsol n' e
    rw [r1, tableLoop, getSt_bind, if_pos (by rfl)]
    have hO2 := Over.start r2.tabs
    rw [r2.parsed] at hO2
    exact .ok ⟨c2, r2, r5, by rw [setCont_cont]; exact hO2, by rw [setCont_cont], by rw [setCont_cont]; exact r5, .inl ⟨g2, rfl, (g3.trans haot).symm⟩⟩
  · have hne : s1.rest ≠ [] := by obtain ⟨r, hr⟩ := cur_cons g1 (by decide); rw [hr]; simp
    obtain ⟨t1, hO, hset, hgt, hgd, hnames, htab, hfol⟩ := child_over m full s1 s c (.empty true) (tb.setCont c) tb1 hR hl1 g hl
      (by rw [setCont_cont]; exact hO0) (lined_of_flat hi.wf hflat) (Cont.good_empty closed_PW) (by rw [setCont_cont]; exact hg)
    rw [setCont_setCont] at hset
    have hk := keeps_fact ((tables_keep m).2.2.1 s1 full (tb.setCont c)) g hl hR (by rw [setCont_cont]; exact hcl)
    obtain ⟨v, hv, hvt⟩ := hk.text
    refine ⟨c, t1, pend s1, v, hO, hset, hi, hpend, hgt, hgd, htab (by intro e he; cases he), hk.ready, hk.aot.trans ha, hs, hv, fun ia => ?_, fun X l cs hX hsol hdis n' e => ?_⟩
    · have := hvt ia
      rw [setCont_cont, hO.body, Ctx.text_append] at this
      exact List.append_cancel_left this
    · refine follow_less ((tables_steady n' (n' + (X.length + 1)) (by omega)).2.1 _ _) ?_
      obtain ⟨n1, c2, e2, lg, r1, r2, r5⟩ := hrun X l cs hX hsol n' e
      rw [r1, tableLoop_again q1 hl1 rfl rfl ha g1]
      have hO2 := Over.start r2.tabs
      rw [r2.parsed] at hO2
      rcases hfol c2 (tb.setCont c2) (by rw [setCont_cont]; exact hO2) (by rw [setCont_cont]; exact r5) (fun k hk => r2.absent (hdis k hk)) n1 lg with h | ⟨a, s', h, f1, f2, f3, f4⟩
      · exact .inl h
      · exact .inr ⟨a, s', h, c2, r2, r5, f1, by rw [setCont_setCont] at f2; exact f2, f3, .inr ⟨lg, f4⟩⟩

end Tomlkit
