import Verif.Proofs.Within
import Verif.Proofs.AboveEdits
/-!
# Edits of the lines of a table, read back
-/
namespace Tomlkit
open _root_.Spec Tomlkit.Spec

theorem stopParsing_setE (c : Cont) (i : Nat) (e : Entry) : (c.setE i e).stopParsing = c.stopParsing.setE i e.stopParsing := by
  have h1 := (stopParsing_fields (c.setE i e)).1
  have h2 := (stopParsing_fields c).1
  obtain ⟨b, m, d, p, tk⟩ := c
  have h3 : ∀ x : List Entry, (Cont.mk x m d p tk).stopParsing = .mk (Cont.mk x m d p tk).stopParsing.body m d false tk := fun x => rfl
  show (Cont.mk (b.set i e) m d p tk).stopParsing = .mk ((Cont.mk b m d p tk).stopParsing.body.set i e.stopParsing) m d false tk
  rw [h3, h2]
  have h1 : (Cont.mk (b.set i e) m d p tk).stopParsing.body = (b.set i e).map Entry.stopParsing := h1
  rw [h1, List.map_set]
  rfl

theorem oneTable_stop {d : Cont} {k : Str} {i : Nat} {key : Option SKey} {T : Tbl} (h : OneTable d.stopParsing k i key T) :
    ∃ T1, OneTable d k i key T1 ∧ T.cont = T1.cont.stopParsing ∧ T.trivia = T1.trivia ∧ T.superFlag = T1.superFlag ∧ ∀ C, T.setCont C = T1.setCont C := by
  obtain ⟨h1, h2⟩ := h
  rw [(stopParsing_fields d).2.1] at h1
  rw [(stopParsing_fields d).1, List.getElem?_map] at h2
  rcases hb : d.body[i]? with _ | ⟨k2, v⟩ <;> rw [hb] at h2
  · cases h2
  have h2 : Entry.mk k2 v.stopParsing = .mk key (.table T) := Option.some.inj h2
  obtain ⟨rfl, h3⟩ := Entry.mk.inj h2
  rcases v with _ | _ | _ | _ | _ | _ | _ | _ | _ | _ | _ | tb | ⟨ts, t, nm, p⟩ | _ <;> try (cases h3)
  obtain ⟨c, t, a, sf, n, dd⟩ := tb
  exact ⟨_, ⟨h1, hb⟩, rfl, rfl, rfl, fun C => rfl⟩

theorem text_stop (x : Ctx) (hx : x = .top ∨ ∃ kd ia key, x = .tbl kd ia key) (b : List Entry) : x.text (b.map Entry.stopParsing) = x.text b := by
  have hb : b.map Entry.stopParsing = b.stopParsingEntries := ((stopParsing_fields (.mk b [] [] false [])).1).symm
  rw [hb]
  obtain ⟨h1, h2, _⟩ := stopParsingEntries_text b
  rcases hx with rfl | ⟨kd, ia, key, rfl⟩
  · rw [← bodyStr_ctx, ← bodyStr_ctx, h1]
  · rw [← tableBodyStr_ctx, ← tableBodyStr_ctx, h2]

/-- the text above the lines of a table, the lines, and what comes below -/
structure Parted (s : Str) (doc : Cont) (i : Nat) (key : Option SKey) (T : Tbl) (c t : Cont) (A Tx : Str) : Prop where
  over : Over c t T.cont
  flat : FlatDoc c
  shut : Tx ≠ [] → Shut c.body
  cmt : ∀ e ∈ c.body, Cmt e.v.trivia.comment
  good : t.Good Cont.WF
  parsed : t.parsed = false
  tables : ∀ e ∈ t.body, e.v.isTableLike = true
  old : s = A ++ (entsStr none c.body ++ Tx)
  above : ∃ h, A = bodyStr (doc.body.take i) ++ h
  new : ∀ C c', C.body = c' ++ t.body → (∀ e ∈ c', e.v.isTableLike = false) → dumps (doc.setE i (.mk key (.table (T.setCont C)))) = A ++ (entsStr none c' ++ Tx)

theorem within {s : Str} {doc : Cont} {k : Str} {i : Nat} {key : Option SKey} {T : Tbl} (h : parseLog s = .ok (doc, [])) (hn : NoLoneCr s) (ho : OneTable doc k i key T)
    (hT : T.superFlag = some false) (hnl : hasNl T.trivia.trail = true) (hd : ∀ e ∈ T.cont.body, isDottedKey e.key = false)
    (hw : ∀ e ∈ linePart T.cont, Spaces e.v.trivia.commentWs) :
    ∃ c t A Tx, Parted s doc i key T c t A Tx ∧
      ∀ X l cs, FLines X Tx l cs → Solids l → (∀ x ∈ l, ∀ i, x.fact i → i.isTableLike = false) → (∀ k, mapGet k t.map ≠ none → k ∉ l.map Known.key) →
        ∃ c2 d2, parse (A ++ X) = .ok (doc.setE i (.mk key (.table (T.setCont d2)))) ∧ Over c2 t d2 ∧ Flat c2 ∧ c2.WF ∧ c2.dict = l.map Known.key ∧
          (∀ x ∈ l, ∃ i, c2.item x.key = .ok (.inl i) ∧ x.fact i) ∧ c2.comments = cs := by
  obtain ⟨d1, st, hp, rfl, hl⟩ := parseLog_pre h
  obtain ⟨T1, ho1, htc, htt, htf, hts⟩ := oneTable_stop ho
  rw [htf] at hT
  rw [htt] at hnl
  have hd1 : ∀ e ∈ T1.cont.body, isDottedKey e.key = false := fun e he => by
    have := hd e.stopParsing (by rw [htc, (stopParsing_fields _).1]; exact List.mem_map_of_mem he)
    have hk : e.stopParsing.key = e.key := by cases e; rfl
    rw [← hk]; exact this
  obtain ⟨c, t, A, p, ln, Tx, v, B, hC, hread⟩ := within_pre hp hl hn ho1 hT hnl hd1
  have hi := hC.inv
  have hflat := hi.flat
  have hstop := stop_of_flat hflat
  have hOs := hC.over.stop
  rw [← htc] at hOs
  have htab : ∀ e ∈ t.stopParsing.body, e.v.isTableLike = true := fun e he => by
    rw [(stopParsing_fields _).1] at he
    obtain ⟨e', he', rfl⟩ := List.mem_map.1 he
    rw [isTableLike_stop]
    exact hC.tables e' he'
  have hcw : ∀ e ∈ c.body, Spaces e.v.trivia.commentWs := fun e he => hw e (by
    have := hOs.parts (by rw [hstop]; exact hflat) htab
    rw [this.1, hstop]
    exact he)
  have hib : i < d1.body.length := (List.getElem?_eq_some_iff.1 ho1.2).1
  refine ⟨c.stopParsing, t.stopParsing, A ++ ln, Tx, ⟨hOs, ?_, ?_, ?_, ?_, (stopParsing_fields _).2.2, htab, ?_, ?_, ?_⟩, ?_⟩
  · rw [hstop]
    refine ⟨hi.wf.of_shape rfl _ _, ?_, rfl, hi.keys⟩
    rcases hi.ends with he | ⟨_, a, e, hb, ha, he⟩
    · exact Shut.flat fun e h0 => he e h0 (hcw e h0)
    · have hs : Shut a := fun e h0 => ha e h0 (hcw e (by rw [hb]; simp [h0]))
      have hfe := he (hcw e (by rw [hb]; simp))
      show FlatBody c.body
      rw [hb]
      exact hs.append ⟨⟨false, hfe, .inr (by intro x hx; cases hx)⟩, trivial⟩
  · rw [hstop]
    exact fun h0 e he => hC.shut h0 e he (hcw e he)
  · rw [hstop]
    exact hi.comments
  · exact Cont.stopParsing_good closed_WF (fun hc => hc) t (good_WF_of_PW hC.good)
  · rw [hstop, List.append_assoc]
    exact hC.old
  · refine ⟨T1.trivia.indent ++ ln, ?_⟩
    rw [hC.above, (stopParsing_fields _).1, ← List.map_take, bodyStr_ctx, text_stop _ (.inl rfl), List.append_assoc]
  · intro C c' hCb hc'
    rw [hts]
    have hd : ∀ z : Cont, dumps z = Ctx.top.text z.body := fun z => by
      rw [← bodyStr_ctx]; cases z; rfl
    rw [hd, setE_take (by rw [(stopParsing_fields _).1, List.length_map]; exact hib), (stopParsing_fields _).1, ← List.map_take, ← List.map_drop]
    have hx : ∀ (a : List Entry) (e : Entry) (b : List Entry), Ctx.top.text (a ++ e :: b) = Ctx.top.text a ++ (Ctx.top.entry e ++ Ctx.top.text b) := fun a e b => by
      rw [Ctx.text_append]; rfl
    rw [hx, text_stop _ (.inl rfl), text_stop _ (.inl rfl), hC.entry, hCb, Ctx.text_append, flat_text hc', (stopParsing_fields _).1, text_stop _ (.inr ⟨_, _, _, rfl⟩), hC.sub,
      ← hC.after, hC.below, hC.above]
    simp only [List.append_assoc]
  · intro X l cs hX hsol hplain hdis
    rw [(stopParsing_fields t).2.1] at hdis
    rw [List.append_assoc]
    obtain ⟨d', s', ⟨c2, d2, h1, r2, r5, hO'⟩, hlog⟩ := pre_follow (hread X l cs hX hsol hdis)
    refine ⟨c2.stopParsing, d2.stopParsing, ?_, hO'.stop, ?_, ?_, ?_, fun x hx => ?_, ?_⟩
    · unfold parse
      rw [hlog, h1, stopParsing_setE, hts]
      cases T1
      rfl
    · intro e he
      rw [(stopParsing_fields _).1] at he
      obtain ⟨e', he', rfl⟩ := List.mem_map.1 he
      rw [isTableLike_stop]
      exact r2.plain e' he'
    · exact ((Cont.good_iff _).1 (Cont.stopParsing_good closed_WF (fun hc => hc) c2 (good_WF_of_PW r5))).1
    · rw [stopParsing_dict]; exact r2.dict
    · obtain ⟨i, hi, hf⟩ := r2.known x hx
      refine ⟨i, ?_, hf⟩
      have := Cont.stopParsing_item hi
      rwa [stopParsing_plain (hplain x hx i hf)] at this
    · rw [comments_stop]; exact r2.comments

end Tomlkit
