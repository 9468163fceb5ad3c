import Verif.Proofs.AboveData
/-!
# Edits of the lines above the tables, read back
-/
namespace Tomlkit
open _root_.Spec Tomlkit.Spec

theorem WF.map_name {c : Cont} (h : c.WF) {k : Str} (hk : ∀ x ∈ c.body, x.key.map SKey.key ≠ some k) : mapGet k c.map = none := by
  rcases hm : mapGet k c.map with _ | is
  · rfl
  · obtain ⟨hne, _⟩ := h.idx.ok _ _ hm
    rcases is with _ | ⟨i, r⟩
    · exact absurd rfl hne
    · have hat := h.idx.at hm (List.mem_cons_self ..)
      rw [shape_names, List.getElem?_map] at hat
      rcases hb : c.body[i]? with _ | x <;> rw [hb] at hat
      · cases hat
      · have : x.key.map SKey.key = some k := Option.some.inj hat
        exact absurd this (hk x (List.mem_of_getElem? hb))

/-- a document, its lines and its tables; after the edits; and read back -/
structure Reread (doc : Cont) (s : Str) (ls ls' : List Line) (edited doc' c t c' c2 : Cont) : Prop where
  old : Over c t doc
  new : Over c' t edited
  back : Over c2 t doc'
  good : t.Good Cont.WF
  tables : ∀ e ∈ t.body, e.v.isTableLike = true
  ed : Ed False False c ls
  ed' : Ed False False c' ls'
  flat : Flat c2
  wf : c2.WF
  dict : c2.dict = c'.dict
  items : ∀ k w, PyPair.mk k w ∈ itemsOf ls' → ∃ i, c2.item k = .ok (.inl i) ∧ Worth w i
  comments : c2.comments = commentsOf c'.body
  text : s = bodyStr c.body ++ bodyStr t.body
  text' : dumps edited = bodyStr c'.body ++ bodyStr t.body
  reads : parse (dumps edited) = .ok doc'

theorem above_edits {s : Str} {doc : Cont} {ls : List Line} {es : List Edit} (h : parseLog s = .ok (doc, [])) (hn : NoLoneCr s)
    (hd : ∀ e ∈ doc.body, isDottedKey e.key = false) (hw : ∀ e ∈ linePart doc, Spaces e.v.trivia.commentWs)
    (hl : LinesOf (linePart doc) ls) (he : ∀ e ∈ es, e.Fit) (ha : ∀ e ∈ es, e.Above doc) :
    ∃ doc' c t c' c2, Reread doc s ls (linesAfter ls es) (docAfter doc es) doc' c t c' c2 := by
  obtain ⟨c, t, T, hO, hfd, hshut, hcmt, hgt, htp, htab, hT, hs, hread⟩ := above h hn hd hw
  have htw := ((Cont.good_iff _).1 hgt).1
  have hparts := hO.parts hfd.flat fun e he => (htab e he).1
  rw [hparts.1] at hl
  have hEd : Ed False (T ≠ []) c ls := ⟨hfd, hshut, hl.rows hcmt⟩
  have hk : ∀ e ∈ es, ∀ k, e.key? = some k → mapGet k t.map = none := fun e hm k hk => by
    obtain ⟨k', h1, h2⟩ := ha e hm
    rw [h1] at hk
    cases hk
    rw [hparts.2] at h2
    exact WF.map_name htw h2
  have hadd : ∀ e ∈ es, ¬ e.addsLine := fun e hm h0 => by
    obtain ⟨k', h1, _⟩ := ha e hm
    cases e <;> first | exact h0 | cases h1
  obtain ⟨c', hO', hEd'⟩ := Over.after htw htp (fun e h0 => htab e (by
    rcases hb : t.body with _ | ⟨x, r⟩ <;> rw [hb] at h0
    · cases h0
    · cases h0; simp)) es he hadd hk hO hEd
  have hdump : dumps (docAfter doc es) = entsStr none c'.body ++ T := by
    have : dumps (docAfter doc es) = bodyStr (docAfter doc es).body := by cases docAfter doc es; rfl
    rw [this, bodyStr_ents, hO'.body, entsStr_append, hT]
  have hdict : c'.dict = (knowns c'.body).map Known.key := hEd'.doc.keys
  have hlines := hEd'.doc.body.linesThen (T := T) (by rw [← hdict]; exact hEd'.doc.wf.dictNodup) (by
    by_cases h0 : T = []
    · exact .inl h0
    · exact .inr (hEd'.shut h0))
  obtain ⟨c2, doc2, r1, r2, r3, r4, r5, r6, r7⟩ := hread _ _ _ hlines
    (fun x hx i hi => by obtain ⟨k, v, _, rfl⟩ := mem_knowns.1 hx; exact hi.2.1)
    (fun x hx i hi => by obtain ⟨k, v, _, rfl⟩ := mem_knowns.1 hx; exact hi.1)
    (fun k hk hx => by
      rw [← hdict, hEd'.doc.wf.dictMem] at hx
      obtain ⟨is, hm⟩ := Option.isSome_iff_exists.1 hx
      exact hk (hO'.line k is hm).2)
  refine ⟨doc2, c, t, c', c2, hO, hO', r2, hgt, fun e he => (htab e he).1, ⟨hEd.doc, (fun h => h.elim), hEd.rows⟩, ⟨hEd'.doc, (fun h => h.elim), hEd'.rows⟩,
    r3, r4, by rw [r5, hdict], fun k w hkw => ?_, r7, ?_, ?_, by rw [hdump]; exact r1⟩
  · obtain ⟨v, q1, w', ⟨n1, q2⟩, q3⟩ := hEd'.item hkw
    obtain ⟨j, e, hm, hb, rfl⟩ := item_single.1 q1
    obtain ⟨i, key, old, hi, hb', hkk, _⟩ := single_of_plain hEd'.doc.wf (flat_holds hEd'.doc.flat) hm
    cases hi
    rw [hb'] at hb
    cases hb
    obtain ⟨i, g1, g2⟩ := r6 ⟨key.key, Again old⟩ (mem_knowns.2 ⟨key, old, List.mem_of_getElem? hb', rfl⟩)
    obtain ⟨_, _, n2, g3⟩ := g2
    refine ⟨i, by rw [← hkk]; exact g1, w', ⟨n1 + n2, fun n hn => ?_⟩, q3⟩
    rw [g3 n (by omega)]
    exact q2 n (by omega)
  · rw [bodyStr_ents, bodyStr_ents, hT]; exact hs
  · rw [bodyStr_ents, bodyStr_ents, hT]; exact hdump

end Tomlkit
