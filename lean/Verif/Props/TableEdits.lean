import Verif.Proofs.WithinEdits
import Verif.Props.AboveEdits
/-!
# Editing the lines of a table: C45, C18, C33
-/
namespace Tomlkit
open _root_.Spec Tomlkit.Spec

/-- **C45.** `parse(s)`, then any sequence of assignments, additions, deletions and comments on the keys of one table `[k]`. Only the lines of this table change
in the text: what stands before them, and what comes from the first sub-table or the next table on, is the same character by character. The new text is accepted, and
the document read from it is the old one with other lines in this table: every other entry is the same object, the header and the sub-tables of the table are the same,
and every other key reads the same. -/
theorem C45_only_the_lines_of_the_table (s : Str) (doc : Cont) (k : Str) (i : Nat) (key : Option SKey) (T : Tbl) (ls : List Line) (es : List Edit)
    (h : parseLog s = .ok (doc, [])) (hn : NoLoneCr s) (ho : OneTable doc k i key T) (hT : T.superFlag = some false) (hnl : hasNl T.trivia.trail = true)
    (hsp : spaceRun T.trivia.indent = none) (hd : ∀ e ∈ T.cont.body, isDottedKey e.key = false)
    (hw : ∀ e ∈ linePart T.cont, ∀ c ∈ e.v.trivia.commentWs, isSpaces c = true) (hl : LinesOf (linePart T.cont) ls)
    (he : ∀ e ∈ es, e.Fit) (ha : ∀ e ∈ es, e.Above T.cont) :
    ∃ (A hdr B : Str) (C C' : Cont), A = bodyStr (doc.body.take i) ++ hdr ∧
      s = A ++ (bodyStr (linePart T.cont) ++ B) ∧ dumps (docIn doc k es) = A ++ (bodyStr (linePart C) ++ B) ∧
      docIn doc k es = doc.setE i (.mk key (.table (T.setCont C))) ∧
      parse (dumps (docIn doc k es)) = .ok (doc.setE i (.mk key (.table (T.setCont C')))) ∧
      tablePart C = tablePart T.cont ∧ tablePart C' = tablePart T.cont ∧
      (∀ k', k' ∈ C'.dict ↔ k' ∈ (itemsOf (linesAfter ls es)).map PyPair.key ∨ ∃ x ∈ tablePart T.cont, x.key.map SKey.key = some k') ∧
      ∀ k' ≠ k, ∀ n, unwrapKey n (docIn doc k es) k' = unwrapKey n doc k' ∧
        unwrapKey n (doc.setE i (.mk key (.table (T.setCont C')))) k' = unwrapKey n doc k' := by
  obtain ⟨c, t, c', c2, d2, A, Tx, R⟩ := within_edits h hn ho hT hnl hsp hd hw hl he ha
  have p1 := R.old.parts R.ed.doc.flat R.tables
  have p2 := R.new.parts R.ed'.doc.flat R.tables
  have p3 := R.back.parts R.flat R.tables
  have htw := ((Cont.good_iff _).1 R.good).1
  have hp : parse s = .ok doc := by unfold parse; rw [h]; rfl
  have hg := (parse_all s).1 doc hp
  obtain ⟨hdr, hA⟩ := R.above
  refine ⟨A, hdr, Tx, docAfter T.cont es, d2, hA, by rw [p1.1]; exact R.text, by rw [p2.1]; exact R.text', R.edited, R.reads, by rw [p2.2, p1.2], by rw [p3.2, p1.2],
    fun k' => ?_, fun k' hk n => ⟨?_, unwrapKey_setE hg ho hk d2 n⟩⟩
  · rw [R.back.dict, R.dict, R.ed'.doc.keys, R.ed'.rows.keys, p1.2]
    refine or_congr Iff.rfl ⟨fun h0 => ?_, fun ⟨x, hx, hk⟩ => ?_⟩
    · apply Classical.byContradiction
      intro h1
      have := WF.map_name htw (k := k') fun x hx h2 => h1 ⟨x, hx, h2⟩
      rw [htw.dictMem, this] at h0
      cases h0
    · rw [htw.dictMem]
      rcases hm : mapGet k' t.map with _ | is
      · obtain ⟨j, hj, hb⟩ := List.getElem_of_mem hx
        obtain ⟨is, hm', _⟩ := (htw.idx.pos k' j).1 (by
          rw [shape_names, List.getElem?_map, List.getElem?_eq_getElem hj, hb]
          show some x.name = some (some k')
          rw [show x.name = some k' from hk])
        rw [hm] at hm'
        cases hm'
      · rfl
  · rw [R.edited]
    exact unwrapKey_setE hg ho hk _ n

theorem oneTable_good {d : Cont} {k : Str} {i : Nat} {key : Option SKey} {T : Tbl} (hg : d.Good Cont.WF) (ho : OneTable d k i key T) : T.cont.WF := by
  have := ((Cont.good_iff _).1 hg).2 _ (List.mem_of_getElem? ho.2)
  cases T
  have this : Cont.Good Cont.WF _ := this
  exact ((Cont.good_iff _).1 this).1

/-- C18 for edits of the lines of one table: `parse(dumps(doc))` succeeds again, and the data of `doc[k]` in both is the dict that the same edits make of the lines of
the table, together with what its sub-tables held before. (The data of every other key is the same: C45.) `hu` says that the data of the table can be read. Missing:
edits of tables written in several places, of indented tables and of tables with dotted keys. -/
theorem C18_inside_table_partial (s : Str) (doc : Cont) (k : Str) (i : Nat) (key : Option SKey) (T : Tbl) (ls : List Line) (es : List Edit)
    (h : parseLog s = .ok (doc, [])) (hn : NoLoneCr s) (ho : OneTable doc k i key T) (hT : T.superFlag = some false) (hnl : hasNl T.trivia.trail = true)
    (hsp : spaceRun T.trivia.indent = none) (hd : ∀ e ∈ T.cont.body, isDottedKey e.key = false)
    (hw : ∀ e ∈ linePart T.cont, ∀ c ∈ e.v.trivia.commentWs, isSpaces c = true) (hl : LinesOf (linePart T.cont) ls)
    (he : ∀ e ∈ es, e.Fit) (ha : ∀ e ∈ es, e.Above T.cont) (n : Nat) (data : List PyPair) (hu : T.cont.unwrap n = .ok data) :
    ∃ doc' w w', parse (dumps (docIn doc k es)) = .ok doc' ∧
      (∃ n0, ∀ n ≥ n0, unwrapKey n (docIn doc k es) k = .ok (.dict w) ∧ unwrapKey n doc' k = .ok (.dict w')) ∧
      Same (.dict (itemsOf (linesAfter ls es) ++ data.filter fun p => !hasItem ls p.key)) (.dict w) ∧
      Same (.dict (itemsOf (linesAfter ls es) ++ data.filter fun p => !hasItem ls p.key)) (.dict w') := by
  obtain ⟨c, t, c', c2, d2, A, Tx, R⟩ := within_edits h hn ho hT hnl hsp hd hw hl he ha
  have hp : parse s = .ok doc := by unfold parse; rw [h]; rfl
  have hdw := oneTable_good ((parse_all s).1 doc hp) ho
  have hcc : ∀ C, (T.setCont C).cont = C := fun C => by cases T; rfl
  have ho' : OneTable (doc.setE i (.mk key (.table (T.setCont d2)))) k i key (T.setCont d2) := oneTable_setE ho
  have hoe : OneTable (docIn doc k es) k i key (T.setCont (docAfter T.cont es)) := by rw [R.edited]; exact oneTable_setE ho
  have hdw' := oneTable_good ((parse_all _).1 _ R.reads) ho'
  rw [hcc] at hdw'
  have htw := ((Cont.good_iff _).1 R.good).1
  rcases n with _ | n
  · rw [Cont.unwrap] at hu; cases hu
  rw [Cont.unwrap] at hu
  obtain ⟨hkeys, hdata⟩ := unwrapKeys_inv hu
  have hmem : ∀ {k : Str} {w : PyVal}, PyPair.mk k w ∈ (data.filter fun p => !hasItem ls p.key) ↔ PyPair.mk k w ∈ data ∧ k ∉ c.dict := fun {k w} => by
    rw [List.mem_filter, Bool.not_eq_true', ← Bool.not_eq_true, R.ed.has]
    exact Iff.rfl
  have hnone : ∀ {k : Str}, k ∉ c.dict → mapGet k c.map = none := fun {k} hk => by
    rcases hm : mapGet k c.map with _ | is
    · rfl
    · exact absurd ((R.ed.doc.wf.dictMem k).2 (by rw [hm]; rfl)) hk
  have htk : ∀ k, k ∈ (data.filter fun p => !hasItem ls p.key).map PyPair.key ↔ k ∈ t.dict := fun k => by
    constructor
    · intro hk
      obtain ⟨⟨k', w⟩, h1, h2⟩ := List.mem_map.1 hk
      have : k' = k := h2
      subst this
      obtain ⟨h3, h4⟩ := hmem.1 h1
      have : k' ∈ T.cont.dict := by rw [← hkeys]; exact List.mem_map_of_mem (f := PyPair.key) h3
      exact ((R.old.dict k').1 this).resolve_left h4
    · intro hk
      have h1 : k ∈ T.cont.dict := (R.old.dict k).2 (.inr hk)
      rw [← hkeys] at h1
      obtain ⟨⟨k', w⟩, h5, h2⟩ := List.mem_map.1 h1
      have : k' = k := h2
      subst this
      refine List.mem_map.2 ⟨.mk k' w, hmem.2 ⟨h5, fun hc => ?_⟩, rfl⟩
      obtain ⟨is, hm⟩ := Option.isSome_iff_exists.1 ((R.ed.doc.wf.dictMem k').1 hc)
      have := (htw.dictMem k').1 hk
      rw [(R.old.line k' is hm).2] at this
      cases this
  have hW : ((data.filter fun p => !hasItem ls p.key).map PyPair.key).Nodup :=
    List.Nodup.sublist (List.Sublist.map _ List.filter_sublist) (by rw [hkeys]; exact hdw.dictNodup)
  have hw' : ∀ k w, PyPair.mk k w ∈ (data.filter fun p => !hasItem ls p.key) → ∃ n, unwrapKey n t k = .ok w := fun k w hk => by
    obtain ⟨h1, h2⟩ := hmem.1 hk
    obtain ⟨m, hm⟩ := hdata k w h1
    exact ⟨m, by rw [← R.old.unwrapTable R.good (hnone h2)]; exact hm⟩
  have hI : c'.dict = (itemsOf (linesAfter ls es)).map PyPair.key := by rw [R.ed'.doc.keys, R.ed'.rows.keys]
  have hIn : ((itemsOf (linesAfter ls es)).map PyPair.key).Nodup := by rw [← hI]; exact R.ed'.doc.wf.dictNodup
  obtain ⟨w, ⟨n1, q1⟩, _, q3⟩ := R.new.unwrap R.good R.ed'.doc.wf (docAfter_wf hdw es) hIn hW (fun k => by rw [hI]) htk (fun k w hk => R.ed'.item hk) hw'
  obtain ⟨w', ⟨n2, g1⟩, _, g3⟩ := R.back.unwrap R.good R.wf hdw' hIn hW (fun k => by rw [R.dict, hI]) htk R.items hw'
  refine ⟨_, w, w', R.reads, ⟨n1 + n2 + 2, fun n hn => ?_⟩, q3, g3⟩
  obtain ⟨m, rfl⟩ : ∃ m, n = m + 2 := ⟨n - 2, by omega⟩
  rw [unwrapKey_table hoe, unwrapKey_table ho', hcc, hcc, q1 m (by omega), g1 m (by omega)]
  exact ⟨rfl, rfl⟩

/-- C33 for edits of the lines of one table: every comment on these lines that no edit removes, and every comment added, is read back in its place among the others, and
there are no other comments among the lines; the comments everywhere else are the same (the entries are, by C45). -/
theorem C33_inside_table_partial (s : Str) (doc : Cont) (k : Str) (i : Nat) (key : Option SKey) (T : Tbl) (ls : List Line) (es : List Edit)
    (h : parseLog s = .ok (doc, [])) (hn : NoLoneCr s) (ho : OneTable doc k i key T) (hT : T.superFlag = some false) (hnl : hasNl T.trivia.trail = true)
    (hsp : spaceRun T.trivia.indent = none) (hd : ∀ e ∈ T.cont.body, isDottedKey e.key = false)
    (hw : ∀ e ∈ linePart T.cont, ∀ c ∈ e.v.trivia.commentWs, isSpaces c = true) (hl : LinesOf (linePart T.cont) ls)
    (he : ∀ e ∈ es, e.Fit) (ha : ∀ e ∈ es, e.Above T.cont) :
    ∃ C', parse (dumps (docIn doc k es)) = .ok (doc.setE i (.mk key (.table (T.setCont C')))) ∧ tablePart C' = tablePart T.cont ∧
      ListRel EqualUpToSpaces ((linePart C').flatMap fun e => if e.v.trivia.comment.isEmpty then [] else [e.v.trivia.comment]) (notesOf (linesAfter ls es)) := by
  obtain ⟨c, t, c', c2, d2, A, Tx, R⟩ := within_edits h hn ho hT hnl hsp hd hw hl he ha
  have p1 := R.old.parts R.ed.doc.flat R.tables
  have p3 := R.back.parts R.flat R.tables
  refine ⟨d2, R.reads, by rw [p3.2, p1.2], ?_⟩
  rw [p3.1]
  have := R.comments
  unfold Cont.comments at this
  rw [this]
  exact R.ed'.rows.notesLoose

/-! ### an example -/

/-- a dotted key, then tables; `[t]` has lines with comments and a sub-table, and other tables come after -/
def innerText : Str := t!"a.b = 1\n[o]\ny = 1\n\n[t] # tee\n  x = 1 # one\n# note\nz=[ 1, # in\n 2 ]\n\n[t.s]\nq = 2\n[[l]]\ny = 2\n[u]\nx = 'q'\n[o.p]\n"

/-- in `[t]`: `x` replaced, `n` new, `z` given a comment, `n` replaced, `x` deleted, `o` new -/
def innerChanges : List Edit :=
  [.set (t!"x") (.str (t!"x")) .none, .set (t!"n") (.list [.int 1]) .none, .note (t!"z") (t!"three"), .set (t!"n") (.dict [.mk (t!"p") (.int 1)]) .array,
   .remove (t!"x"), .add (t!"o") (.bool true) .none]

def innerOutcome : Str :=
  t!"a.b = 1\n[o]\ny = 1\n\n[t] # tee\n# note\nz=[ 1, # in\n 2 ] # three\nn = {p = 1}\no = true\n\n[t.s]\nq = 2\n[[l]]\ny = 2\n[u]\nx = 'q'\n[o.p]\n"

/-- what the theorems ask of the text -/
def meetsInside (r : Except Err (Cont × List Loss)) (k : Str) (es : List Edit) (out : Str) : Bool :=
  match r with
  | .error _ => false
  | .ok (doc, l) => l.isEmpty && match mapGet k doc.map with
    | some [i] => match tableAt doc.body i with
      | some (_, T) => decide (T.superFlag = some false) && hasNl T.trivia.trail && (spaceRun T.trivia.indent).isNone &&
          T.cont.body.all (fun e => !isDottedKey e.key) && (linePart T.cont).all (fun e => e.v.trivia.commentWs.all isSpaces) &&
          (linesOf? 20 (linePart T.cont)).isSome && decide (dumps (docIn doc k es) = out) && (T.cont.unwrap 50).toOption.isSome &&
          es.all (fun e => match e.key? with
            | none => false
            | some k => (tablePart T.cont).all fun x => x.key.map SKey.key != some k) && decide ((tablePart T.cont).length = 1)
      | none => false
    | _ => false

theorem meetsInside_spec {s k out : Str} {es : List Edit} (h : meetsInside (parseLog s) k es out = true) : ∃ doc i key T ls data, parseLog s = .ok (doc, []) ∧
    OneTable doc k i key T ∧ T.superFlag = some false ∧ hasNl T.trivia.trail = true ∧ spaceRun T.trivia.indent = none ∧
    (∀ e ∈ T.cont.body, isDottedKey e.key = false) ∧ (∀ e ∈ linePart T.cont, ∀ c ∈ e.v.trivia.commentWs, isSpaces c = true) ∧ LinesOf (linePart T.cont) ls ∧
    (∀ e ∈ es, e.Above T.cont) ∧ T.cont.unwrap 50 = .ok data ∧ dumps (docIn doc k es) = out := by
  unfold meetsInside at h
  rcases hp : parseLog s with e | ⟨doc, l⟩ <;> rw [hp] at h
  · cases h
  dsimp only at h
  rw [Bool.and_eq_true] at h
  obtain ⟨h1, h⟩ := h
  split at h
  · rename_i i hm
    split at h
    · rename_i key T htb
      simp only [Bool.and_eq_true, List.all_eq_true, decide_eq_true_eq, Bool.not_eq_true'] at h
      obtain ⟨⟨⟨⟨⟨⟨⟨⟨⟨g1, g2⟩, g3⟩, h2⟩, h3⟩, h4⟩, h5⟩, h6⟩, h7⟩, _⟩ := h
      obtain ⟨ls, hls⟩ := Option.isSome_iff_exists.1 h4
      obtain ⟨data, hu⟩ := Option.isSome_iff_exists.1 h6
      refine ⟨doc, i, key, T, ls, data, by rw [List.isEmpty_iff.1 h1], ⟨hm, tableAt_some htb⟩, g1, g2, Option.isNone_iff_eq_none.1 g3, h2, h3, linesOf?_sound hls, fun e he => ?_, ?_, h5⟩
      · have := h7 e he
        rcases hk : e.key? with _ | k <;> rw [hk] at this
        · cases this
        · refine ⟨k, hk, fun x hx hxk => ?_⟩
          have := List.all_eq_true.1 this x hx
          rw [hxk] at this
          simp at this
      · rcases hx : T.cont.unwrap 50 with e | d <;> rw [hx] at hu <;> cases hu
        rfl
    · cases h
  · cases h

set_option maxRecDepth 10000 in
theorem innerText_meets : meetsInside (parseLog innerText) (t!"t") innerChanges innerOutcome = true := by decide +kernel

theorem innerChanges_fit : ∀ e ∈ innerChanges, e.Fit := by
  simp [innerChanges, Edit.Fit, OneLine, KeysOnce, KeysOnceIn, KeysOncePair, KeysOnceAll, Writable, Throughout, ThroughoutIn, ThroughoutPair, ThroughoutAll, Proper,
    PyVal.isDict, OneLineText]
  decide

theorem innerText_cr : NoLoneCr innerText := by simp [innerText, NoLoneCr]

/-- the theorems apply to this text and these changes -/
example : ∃ (doc : Cont) (i : Nat) (key : Option SKey) (T : Tbl) (C' : Cont) (ls : List Line) (data w' : List PyPair), parseLog innerText = .ok (doc, []) ∧
    parse innerOutcome = .ok (doc.setE i (.mk key (.table (T.setCont C')))) ∧ tablePart C' = tablePart T.cont ∧
    (∃ n, unwrapKey n (doc.setE i (.mk key (.table (T.setCont C')))) (t!"t") = .ok (.dict w')) ∧
    Same (.dict (itemsOf (linesAfter ls innerChanges) ++ data.filter fun p => !hasItem ls p.key)) (.dict w') := by
  obtain ⟨doc, i, key, T, ls, data, h1, h2, h3, h4, h5, h6, h7, h8, h9, h10, h11⟩ := meetsInside_spec innerText_meets
  obtain ⟨_, _, _, C, C', _, _, _, _, g1, _, g2, _⟩ :=
    C45_only_the_lines_of_the_table innerText doc _ i key T ls innerChanges h1 innerText_cr h2 h3 h4 h5 h6 h7 h8 innerChanges_fit h9
  obtain ⟨doc2, w, w', k1, ⟨n, k2⟩, _, k4⟩ :=
    C18_inside_table_partial innerText doc _ i key T ls innerChanges h1 innerText_cr h2 h3 h4 h5 h6 h7 h8 innerChanges_fit h9 50 data h10
  rw [g1] at k1
  cases k1
  rw [h11] at g1
  exact ⟨doc, i, key, T, C', ls, data, w', h1, g1, g2, ⟨n, (k2 n (Nat.le_refl _)).2⟩, k4⟩

end Tomlkit
