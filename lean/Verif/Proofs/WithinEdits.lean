import Verif.Proofs.WithinData
/-!
# Edits of the lines of a table, read back: all together
-/
namespace Tomlkit
open _root_.Spec Tomlkit.Spec

/-- the lines `c` and the sub-tables `t` of a table; its lines after the edits; and what is read back, `d2` -/
structure RereadIn (doc : Cont) (s : Str) (k : Str) (i : Nat) (key : Option SKey) (T : Tbl) (es : List Edit) (ls ls' : List Line) (c t c' c2 d2 : Cont) (A Tx : Str) : Prop where
  old : Over c t T.cont
  new : Over c' t (docAfter T.cont es)
  back : Over c2 t d2
  good : t.Good Cont.WF
  tables : ∀ e ∈ t.body, e.v.isTableLike = true
  ed : Ed False False c ls
  ed' : Ed False False c' ls'
  flat : Flat c2
  wf : c2.WF
  dict : c2.dict = c'.dict
  items : ∀ k w, PyPair.mk k w ∈ itemsOf ls' → ∃ i, c2.item k = .ok (.inl i) ∧ Worth w i
  comments : c2.comments = commentsOf c'.body
  above : ∃ h, A = bodyStr (doc.body.take i) ++ h
  text : s = A ++ (bodyStr c.body ++ Tx)
  edited : docIn doc k es = doc.setE i (.mk key (.table (T.setCont (docAfter T.cont es))))
  text' : dumps (docIn doc k es) = A ++ (bodyStr c'.body ++ Tx)
  reads : parse (dumps (docIn doc k es)) = .ok (doc.setE i (.mk key (.table (T.setCont d2))))

theorem within_edits {s : Str} {doc : Cont} {k : Str} {i : Nat} {key : Option SKey} {T : Tbl} {ls : List Line} {es : List Edit} (h : parseLog s = .ok (doc, [])) (hn : NoLoneCr s)
    (ho : OneTable doc k i key T) (hT : T.superFlag = some false) (hnl : hasNl T.trivia.trail = true) (hsp : spaceRun T.trivia.indent = none)
    (hd : ∀ e ∈ T.cont.body, isDottedKey e.key = false) (hw : ∀ e ∈ linePart T.cont, Spaces e.v.trivia.commentWs)
    (hl : LinesOf (linePart T.cont) ls) (he : ∀ e ∈ es, e.Fit) (ha : ∀ e ∈ es, e.Above T.cont) :
    ∃ c t c' c2 d2 A Tx, RereadIn doc s k i key T es ls (linesAfter ls es) c t c' c2 d2 A Tx := by
  obtain ⟨c, t, A, Tx, hP, hread⟩ := within h hn ho hT hnl hd hw
  have hO := hP.over
  have htw := ((Cont.good_iff _).1 hP.good).1
  have hparts := hO.parts hP.flat.flat hP.tables
  rw [hparts.1] at hl
  have hEd : Ed False (Tx ≠ []) c ls := ⟨hP.flat, hP.shut, hl.rows hP.cmt⟩
  have hk : ∀ e ∈ es, ∀ k, e.key? = some k → mapGet k t.map = none := fun e hm k hk => by
    obtain ⟨k', h1, h2⟩ := ha e hm
    rw [h1] at hk
    cases hk
    rw [hparts.2] at h2
    exact WF.map_name htw h2
  have hadd : ∀ e ∈ es, ¬ e.addsLine := fun e hm h0 => by
    obtain ⟨k', h1, _⟩ := ha e hm
    cases e <;> first | exact h0 | cases h1
  have hhd : Headed t.body := fun e h0 => by
    have hm : e ∈ t.body := List.mem_of_head? h0
    exact ⟨hP.tables e hm, hd e (by rw [hO.body]; exact List.mem_append_right _ hm)⟩
  obtain ⟨c', hO', hEd'⟩ := Over.after htw hP.parsed hhd es he hadd hk hO hEd
  have hedit := docIn_eq htw hP.parsed hhd es he hadd hk ho hsp hO hEd
  have hdump : dumps (docIn doc k es) = A ++ (entsStr none c'.body ++ Tx) := by
    rw [hedit]
    exact hP.new _ _ hO'.body hEd'.doc.flat
  have hdict : c'.dict = (knowns c'.body).map Known.key := hEd'.doc.keys
  have hlines := hEd'.doc.body.linesThen (T := Tx) (by rw [← hdict]; exact hEd'.doc.wf.dictNodup) (by
    by_cases h0 : Tx = []
    · exact .inl h0
    · exact .inr (hEd'.shut h0))
  obtain ⟨c2, d2, r1, r2, r3, r4, r5, r6, r7⟩ := hread _ _ _ hlines
    (fun x hx i hi => by obtain ⟨k, v, _, rfl⟩ := mem_knowns.1 hx; exact hi.2.1)
    (fun x hx i hi => by obtain ⟨k, v, _, rfl⟩ := mem_knowns.1 hx; exact hi.1)
    (fun k hk hx => by
      rw [← hdict, hEd'.doc.wf.dictMem] at hx
      obtain ⟨is, hm⟩ := Option.isSome_iff_exists.1 hx
      exact hk (hO'.line k is hm).2)
  refine ⟨c, t, c', c2, d2, A, Tx, hO, hO', r2, hP.good, hP.tables, ⟨hEd.doc, (fun h => h.elim), hEd.rows⟩, ⟨hEd'.doc, (fun h => h.elim), hEd'.rows⟩,
    r3, r4, by rw [r5, hdict], fun k w hkw => ?_, r7, hP.above, ?_, hedit, ?_, by rw [hdump]; exact r1⟩
  · obtain ⟨v, q1, w', ⟨n1, q2⟩, q3⟩ := hEd'.item hkw
    obtain ⟨j, e, hm, hb, rfl⟩ := item_single.1 q1
    obtain ⟨i, key, old, hi, hb', hkk, _⟩ := single_of_plain hEd'.doc.wf (flat_holds hEd'.doc.flat) hm
    cases hi
    rw [hb'] at hb
    cases hb
    obtain ⟨i, g1, g2⟩ := r6 ⟨key.key, Again old⟩ (mem_knowns.2 ⟨key, old, List.mem_of_getElem? hb', rfl⟩)
    obtain ⟨_, _, n2, g3⟩ := g2
    refine ⟨i, by rw [← hkk]; exact g1, w', ⟨n1 + n2, fun n hn => ?_⟩, q3⟩
    rw [g3 n (by omega)]
    exact q2 n (by omega)
  · rw [bodyStr_ents]; exact hP.old
  · rw [bodyStr_ents]; exact hdump

end Tomlkit
