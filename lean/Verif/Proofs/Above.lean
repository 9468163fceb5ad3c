import Verif.Spec.AboveEdit
import Verif.Proofs.OverEdit
import Verif.Proofs.ParsedRows
/-!
# The lines above the tables of a document that was read
-/
namespace Tomlkit
open _root_.Spec Tomlkit.Spec

theorem Over.stop {c t d : Cont} (h : Over c t d) : Over c.stopParsing t.stopParsing d.stopParsing := by
  obtain ⟨c1, c2, c3⟩ := stopParsing_fields c
  obtain ⟨t1, t2, t3⟩ := stopParsing_fields t
  obtain ⟨d1, d2, d3⟩ := stopParsing_fields d
  have tk : ∀ z : Cont, z.stopParsing.tableKeys = z.tableKeys := fun z => by cases z; rfl
  refine ⟨?_, ?_, ?_, ?_, by rw [d3, t3], ?_⟩
  · rw [c1, t1, d1, h.body, List.map_append]
  · intro k is hk
    rw [c2] at hk
    rw [d2, t2]
    exact h.line k is hk
  · intro k hk
    rw [c2] at hk
    rw [d2, t2, c1, List.length_map]
    exact h.below k hk
  · intro k
    rw [stopParsing_dict, stopParsing_dict, stopParsing_dict]
    exact h.dict k
  · rw [tk, tk, h.keys]

theorem Inv.flat {c : Cont} {fin : Prop} (h : Inv c fin) : ∀ e ∈ c.body, e.v.isTableLike = false := by
  intro e he
  rcases h.cws e he with h0 | h0
  · rcases h.ends with h1 | ⟨_, a, e', hb, ha, he'⟩
    · exact (h1 e he h0).plain
    · rw [hb] at he
      rcases List.mem_append.1 he with he | he
      · exact (ha e he h0).plain
      · rw [List.mem_singleton] at he; subst he
        exact (he' h0).plain
  · exact h0.2.1

theorem lined_of_flat {c : Cont} (hw : c.WF) (hf : ∀ e ∈ c.body, e.v.isTableLike = false) : Lined c := fun k is hm => by
  obtain ⟨i, key, old, rfl, hb, _, hp⟩ := single_of_plain hw (flat_holds hf) hm
  exact ⟨i, _, rfl, hb, hp⟩

theorem comments_stop (c : Cont) : c.stopParsing.comments = c.comments := by
  unfold Cont.comments
  rw [(stopParsing_fields c).1, List.flatMap_map]
  congr 1
  funext e
  rcases e with ⟨k, v⟩
  have : v.stopParsing.trivia = v.trivia := by
    rcases v with _ | _ | _ | _ | _ | _ | _ | _ | _ | _ | _ | ⟨c, t, x, y, z, w⟩ | ⟨ts, t, nm, p⟩ | _ <;> rfl
  show (if v.stopParsing.trivia.comment.isEmpty then [] else [v.stopParsing.trivia.comment]) = _
  rw [this]; rfl

theorem stop_of_flat {c : Cont} (hf : ∀ e ∈ c.body, e.v.isTableLike = false) : c.stopParsing = .mk c.body c.map c.dict false c.tableKeys := by
  have := stop_flat hf
  obtain ⟨b, m, d, p, tk⟩ := c
  have hb := (stopParsing_fields (.mk b m d p tk)).1
  show Cont.mk _ _ _ _ _ = _
  have hb : b.stopParsingEntries = b.map Entry.stopParsing := hb
  rw [hb]
  have this : b.map Entry.stopParsing = b := this
  rw [this]
  rfl

/-- the first loop stops at the same place when other lines come before -/
theorem topItems_again {n : Nat} {c c' : Cont} {st s : St} (h : topItems n c st = .ok c' s) (hl : s.loss = []) (he : st.ext = []) (h0 : st.loss = []) (ha : s.aot = [])
    (m : Nat) (z : Cont) (lg : List Loss) : topItems (m + 1) z ⟨pend s, [], [], lg⟩ = .ok z (s.log lg) := by
  rcases topItems_halt n h hl he h0 with ⟨h1, h2⟩ | ⟨st0, g1, g2, g3, g4⟩
  · have hp : pend s = s.rest := by
      unfold pend
      rw [h1]
      split
      · rename_i h0; exact h0.symm
      · rfl
    rw [hp, topItems_stops h2 _ (by omega)]
    obtain ⟨r, e, a, l⟩ := s
    simp only at h1 ha
    subst h1 ha
    rfl
  · have hi := keeps_fact (parseItem_keeps st0) g4 hl
    obtain ⟨i1, i2, i3⟩ := hi.stop rfl
    have haot : st0.aot = [] := by
      have := parseItem_does st0
      unfold DoesT P.wp at this
      rw [g4] at this
      rw [← ha]
      exact this.1.aot.symm
    have hst : (⟨pend s, [], [], lg⟩ : St) = st0.log lg := by
      rw [pend_of_cur i1]
      obtain ⟨r, e, a, l⟩ := st0
      simp only at g1 haot i2
      subst g1 haot
      rw [← i2]
      rfl
    rw [hst, topItems, getSt_bind, if_neg (by
      have : ((st0.log lg).atEnd || decide ((st0.log lg).cur = 91)) = (st0.atEnd || decide (st0.cur = 91)) := rfl
      rw [this, g3]; exact fun h => by cases h)]
    have hb := blind_parseItem st0 lg
    rw [g4] at hb
    have hq : parseItem (st0.log lg) = .ok none (s.log lg) := by
      generalize parseItem (st0.log lg) = y at hb ⊢
      cases hb with
      | ok x s d h =>
        rw [hl, g2] at h
        have : d = [] := h.symm
        subst this
        rw [List.append_nil]
    exact (bind_step hq).trans rfl

theorem Over.parts {c t d : Cont} (h : Over c t d) (hc : Flat c) (ht : ∀ e ∈ t.body, e.v.isTableLike = true) : linePart d = c.body ∧ tablePart d = t.body := by
  unfold linePart tablePart
  rw [h.body]
  have hb : t.body.takeWhile (fun e => !e.v.isTableLike) = [] ∧ t.body.dropWhile (fun e => !e.v.isTableLike) = t.body := by
    rcases hb : t.body with _ | ⟨e, r⟩
    · exact ⟨rfl, rfl⟩
    · have := ht e (by rw [hb]; simp)
      rw [List.takeWhile_cons_of_neg (by simp [this]), List.dropWhile_cons_of_neg (by simp [this])]
      exact ⟨rfl, rfl⟩
  have ha : ∀ e ∈ c.body, (fun e : Entry => !e.v.isTableLike) e = true := fun e he => by simp [hc e he]
  rw [List.takeWhile_append_of_pos ha, List.dropWhile_append_of_pos ha, hb.1, hb.2, List.append_nil]
  exact ⟨rfl, rfl⟩

/-- **Reading a document whose tables come after lines**: its lines, its tables, and that the tables are read in the same way below any other lines. -/
theorem above {s : Str} {doc : Cont} (h : parseLog s = .ok (doc, [])) (hn : NoLoneCr s) (hd : ∀ e ∈ doc.body, isDottedKey e.key = false)
    (hw : ∀ e ∈ linePart doc, Spaces e.v.trivia.commentWs) :
    ∃ c t T, Over c t doc ∧ FlatDoc c ∧ (T ≠ [] → Shut c.body) ∧ (∀ e ∈ c.body, Cmt e.v.trivia.comment) ∧ t.Good Cont.WF ∧ t.parsed = false ∧
      (∀ e ∈ t.body, e.v.isTableLike = true ∧ isDottedKey e.key = false) ∧ entsStr none t.body = T ∧ s = entsStr none c.body ++ T ∧
      ∀ X l cs, FLines X T l cs → Solids l → (∀ x ∈ l, ∀ i, x.fact i → i.isTableLike = false) → (∀ k, mapGet k t.map ≠ none → k ∉ l.map Known.key) →
        ∃ c2 doc2, parse X = .ok doc2 ∧ Over c2 t doc2 ∧ Flat c2 ∧ c2.WF ∧ c2.dict = l.map Known.key ∧
          (∀ x ∈ l, ∃ i, c2.item x.key = .ok (.inl i) ∧ x.fact i) ∧ c2.comments = cs := by
  obtain ⟨d1, st, hp, rfl, hl⟩ := parseLog_pre h
  unfold preDoc at hp
  obtain ⟨c1, s1, q1, q2⟩ := bind_ok hp
  have hl1 : s1.loss = [] := loss_nil (mono_topTables _ _ _ _ _ q2).2 hl
  obtain ⟨hR, ha, hcl, u, hu, htx⟩ := keeps_fact (topItems_keep _ _ _) q1 hl1 rfl ⟨rfl, trivial⟩
  have ha : s1.aot = [] := ha
  have hempty : Inv (.empty true) ((St.init s).rest = []) :=
    ⟨Cont.WF_empty _, rfl, rfl, .inl (by intro e he; cases he), (by intro e he; cases he), (by intro e he; cases he), (by intro e he; cases he), rfl⟩
  have hno : ¬ HasD d1 := by
    rintro ⟨e, he, _, h1⟩
    have := hd e.stopParsing (by rw [(stopParsing_fields d1).1]; exact List.mem_map_of_mem he)
    have hk : e.stopParsing.key = e.key := by cases e; rfl
    rw [hk, h1] at this
    cases this
  have hinv : Inv c1 True ∧ (s1.rest ≠ [] → PreShut c1.body) := by
    rcases topItems_lines _ q1 hl1 rfl hn hempty with ⟨h1, h2⟩ | ⟨h1, h2⟩ | ⟨h1, h2⟩
    · exact absurd (topTables_hasD _ q2 hl h2 h1) hno
    · exact ⟨h1.imp fun h => h.elim, fun _ => h1.ends.resolve_right fun h => h.1⟩
    · exact ⟨h1, fun h => absurd h2 h⟩
  obtain ⟨hi, hshut⟩ := hinv
  have hflat := hi.flat
  have hg1 : c1.Good PW := by
    have := topItems_does (docFuel s) (.init s) (.empty true) (by show s.length < _; unfold docFuel; omega) (Cont.good_empty closed_PW)
    unfold DoesT P.wp at this
    rw [q1] at this
    exact this.2.2.2
  have hO0 := Over.start hi.tabs
  rw [hi.parsed] at hO0
  obtain ⟨t1, hO, hgt, hgd, hend, _, htab, hfol⟩ := tables_over _ _ _ _ _ _ _ hR ha hl1 q2 hl hO0 (lined_of_flat hi.wf hflat) (Cont.good_empty closed_PW) hg1
  have htab := htab (by intro e he; cases he)
  have hstop := stop_of_flat hflat
  have hOs := hO.stop
  have hcw : ∀ e ∈ c1.body, Spaces e.v.trivia.commentWs := fun e he => hw e (by
    have := hOs.parts (by rw [hstop]; exact hflat) (fun e he => by
      rw [(stopParsing_fields _).1] at he
      obtain ⟨e', he', rfl⟩ := List.mem_map.1 he
      rw [isTableLike_stop]
      exact htab e' he')
    rw [this.1, hstop]
    exact he)
  have htext : entsStr none t1.stopParsing.body = pend s1 := by
    have k1 := keeps_fact (topTables_keep _ _ _) q2 hl hR ha hcl
    have k2 := k1.2
    rw [hO.body, Ctx.text_append] at k2
    have k3 := List.append_cancel_left k2
    rw [← k3, ← bodyStr_ctx, ← bodyStr_ents]
    obtain ⟨b, m, d, p, tk⟩ := t1
    exact (stopParsingEntries_text b).1
  have hs : s = entsStr none c1.body ++ pend s1 := by
    have : (St.init s).rest = u ++ pend s1 := hu
    rw [← bodyStr_ents, bodyStr_ctx, htx]
    exact this
  have hpend : pend s1 ≠ [] → PreShut c1.body := fun h0 => hshut fun h1 => h0 (by unfold pend; rw [if_pos h1])
  refine ⟨c1.stopParsing, t1.stopParsing, pend s1, hOs, ?_, ?_, ?_, ?_, (stopParsing_fields _).2.2, ?_, htext, by rw [hstop]; exact hs, ?_⟩
  · rw [hstop]
    refine ⟨hi.wf.of_shape rfl _ _, ?_, rfl, hi.keys⟩
    rcases hi.ends with he | ⟨_, a, e, hb, ha, he⟩
    · exact Shut.flat fun e h0 => he e h0 (hcw e h0)
    · have hs : Shut a := fun e h0 => ha e h0 (hcw e (by rw [hb]; simp [h0]))
      have hfe := he (hcw e (by rw [hb]; simp))
      show FlatBody c1.body
      rw [hb]
      exact hs.append ⟨⟨false, hfe, .inr (by intro x hx; cases hx)⟩, trivial⟩
  · rw [hstop]
    exact fun h0 e he => hpend h0 e he (hcw e he)
  · rw [hstop]
    exact hi.comments
  · exact Cont.stopParsing_good closed_WF (fun hc => hc) t1 (good_WF_of_PW hgt)
  · intro e he
    refine ⟨?_, hd e (by rw [hOs.body]; exact List.mem_append_right _ he)⟩
    rw [(stopParsing_fields _).1] at he
    obtain ⟨e', he', rfl⟩ := List.mem_map.1 he
    rw [isTableLike_stop]
    exact htab e' he'
  · intro X l cs hX hsol hplain hdis
    rw [(stopParsing_fields t1).2.1] at hdis
    obtain ⟨n1, c2, e2, lg, r1, r2, r3, r4, r5⟩ := flines_read sink_top hX hsol (docFuel X) (Cont.empty true) [] [] [] [] []
      (by unfold docFuel; omega) rfl (Cont.good_empty closed_PW) fbody_empty (by intro x hx; cases hx) (by simp)
    simp only [List.nil_append] at r2
    subst r4
    obtain ⟨m, rfl⟩ : ∃ m, n1 = m + 1 := ⟨n1 - 1, by unfold docFuel at r3; omega⟩
    rw [topItems_again q1 hl1 rfl rfl ha] at r1
    have hO2 := Over.start r2.tabs
    rw [r2.parsed] at hO2
    have hF : Follow (preDoc X (.init X)) fun d' _ => Over c2 t1 d' := by
      unfold preDoc
      refine Follow.bind (F := fun a s => a = c2 ∧ s = s1.log lg) (.inr ⟨_, _, r1, rfl, rfl⟩) fun a s' _ hF => ?_
      obtain ⟨rfl, rfl⟩ := hF
      rcases hfol a a hO2 r5 (fun k hk => r2.absent (hdis k hk)) (docFuel X) lg with h | ⟨d', s', h, h1, _⟩
      · exact .inl h
      · exact .inr ⟨d', s', h, h1⟩
    obtain ⟨d', s', hO', hlog⟩ := pre_follow hF
    refine ⟨c2.stopParsing, d'.stopParsing, ?_, hO'.stop, ?_, ?_, ?_, fun x hx => ?_, ?_⟩
    · unfold parse
      rw [hlog]; rfl
    · intro e he
      rw [(stopParsing_fields _).1] at he
      obtain ⟨e', he', rfl⟩ := List.mem_map.1 he
      rw [isTableLike_stop]
      exact r2.plain e' he'
    · exact ((Cont.good_iff _).1 (Cont.stopParsing_good closed_WF (fun hc => hc) c2 (good_WF_of_PW r5))).1
    · rw [stopParsing_dict]; exact r2.dict
    · obtain ⟨i, hi, hf⟩ := r2.known x hx
      refine ⟨i, ?_, hf⟩
      have := Cont.stopParsing_item hi
      rwa [stopParsing_plain (hplain x hx i hf)] at this
    · rw [comments_stop]; exact r2.comments

end Tomlkit
