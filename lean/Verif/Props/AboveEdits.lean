import Verif.Proofs.AboveEdits
import Verif.Props.ParsedEdits
/-!
# Editing the lines above the tables: C18, C33, C42
-/
namespace Tomlkit
open _root_.Spec Tomlkit.Spec

/-- **C42.** `parse(s)` of a text with tables, then any sequence of assignments, additions, deletions and comments on keys above the tables. The text is
the old text with other lines above the tables: what stands from the first table on is the same, character by character. The new text is accepted, and
all its tables are the same objects as before — the same entries with the same comments, blank lines and spelling — and read the same. -/
theorem C42_tables_below_untouched (s : Str) (doc : Cont) (ls : List Line) (es : List Edit) (h : parseLog s = .ok (doc, [])) (hn : NoLoneCr s)
    (hd : ∀ e ∈ doc.body, isDottedKey e.key = false) (hw : ∀ e ∈ linePart doc, ∀ c ∈ e.v.trivia.commentWs, isSpaces c = true)
    (hl : LinesOf (linePart doc) ls) (he : ∀ e ∈ es, e.Fit) (ha : ∀ e ∈ es, e.Above doc) :
    s = bodyStr (linePart doc) ++ bodyStr (tablePart doc) ∧
    dumps (docAfter doc es) = bodyStr (linePart (docAfter doc es)) ++ bodyStr (tablePart doc) ∧
    ∃ doc', parse (dumps (docAfter doc es)) = .ok doc' ∧ tablePart (docAfter doc es) = tablePart doc ∧ tablePart doc' = tablePart doc ∧
      (∀ k, k ∈ doc'.dict ↔ k ∈ (itemsOf (linesAfter ls es)).map PyPair.key ∨ ∃ x ∈ tablePart doc, x.key.map SKey.key = some k) ∧
      ∀ x ∈ tablePart doc, ∀ k, x.key.map SKey.key = some k → ∀ n, unwrapKey n (docAfter doc es) k = unwrapKey n doc k ∧ unwrapKey n doc' k = unwrapKey n doc k := by
  obtain ⟨doc', c, t, c', c2, R⟩ := above_edits h hn hd hw hl he ha
  have p1 := R.old.parts R.ed.doc.flat R.tables
  have p2 := R.new.parts R.ed'.doc.flat R.tables
  have p3 := R.back.parts R.flat R.tables
  have htw := ((Cont.good_iff _).1 R.good).1
  have hname : ∀ x ∈ t.body, ∀ k, x.key.map SKey.key = some k → mapGet k t.map ≠ none := fun x hx k hk h0 => by
    obtain ⟨i, hi, hb⟩ := List.getElem_of_mem hx
    obtain ⟨is, hm, _⟩ := (htw.idx.pos k i).1 (by
      rw [shape_names, List.getElem?_map, List.getElem?_eq_getElem hi, hb]
      show some x.name = some (some k)
      rw [show x.name = some k from hk])
    rw [h0] at hm
    cases hm
  rw [p1.1, p1.2, p2.1, p2.2]
  refine ⟨R.text, R.text', doc', R.reads, rfl, p3.2, fun k => ?_, fun x hx k hk n => ?_⟩
  · rw [R.back.dict, R.dict, R.ed'.doc.keys, R.ed'.rows.keys]
    refine or_congr Iff.rfl ⟨fun h0 => ?_, fun ⟨x, hx, hk⟩ => ?_⟩
    · apply Classical.byContradiction
      intro h1
      have := WF.map_name htw (k := k) fun x hx h2 => h1 ⟨x, hx, h2⟩
      rw [htw.dictMem, this] at h0
      cases h0
    · rw [htw.dictMem]
      rcases hm : mapGet k t.map with _ | is
      · exact absurd hm (hname x hx k hk)
      · rfl
  · have hnone : ∀ {z d : Cont}, Over z t d → mapGet k z.map = none := fun {z d} hO => by
      rcases hm : mapGet k z.map with _ | is
      · rfl
      · exact absurd (hO.line k is hm).2 (hname x hx k hk)
    rw [R.new.unwrapTable R.good (hnone R.new), R.back.unwrapTable R.good (hnone R.back), R.old.unwrapTable R.good (hnone R.old)]
    exact ⟨rfl, rfl⟩

/-- C18 for documents with tables, edited above the tables: `parse(dumps(doc))` succeeds again, and the data of both is the dict that the same edits make of
the lines, together with what the tables held before. (In the order of the keys, a new key comes last in `doc` and before the tables in what is read back.)

`hu` says that the data of the document can be read; for some documents with tables in several places it cannot (`C32`). Missing: edits inside tables (for which
see C40), new tables, documents with dotted keys. -/
theorem C18_above_tables_partial (s : Str) (doc : Cont) (ls : List Line) (es : List Edit) (h : parseLog s = .ok (doc, [])) (hn : NoLoneCr s)
    (hd : ∀ e ∈ doc.body, isDottedKey e.key = false) (hw : ∀ e ∈ linePart doc, ∀ c ∈ e.v.trivia.commentWs, isSpaces c = true)
    (hl : LinesOf (linePart doc) ls) (he : ∀ e ∈ es, e.Fit) (ha : ∀ e ∈ es, e.Above doc) (n : Nat) (data : List PyPair) (hu : doc.unwrap n = .ok data) :
    ∃ doc' w w', parse (dumps (docAfter doc es)) = .ok doc' ∧ (∃ n0, ∀ n ≥ n0, (docAfter doc es).unwrap n = .ok w ∧ doc'.unwrap n = .ok w') ∧
      Same (.dict (itemsOf (linesAfter ls es) ++ data.filter fun p => !hasItem ls p.key)) (.dict w) ∧
      Same (.dict (itemsOf (linesAfter ls es) ++ data.filter fun p => !hasItem ls p.key)) (.dict w') := by
  obtain ⟨doc', c, t, c', c2, R⟩ := above_edits h hn hd hw hl he ha
  have hp : parse s = .ok doc := by unfold parse; rw [h]; rfl
  have hdw := ((Cont.good_iff _).1 ((parse_all s).1 doc hp)).1
  have hdw' := ((Cont.good_iff _).1 ((parse_all _).1 doc' R.reads)).1
  have htw := ((Cont.good_iff _).1 R.good).1
  rcases n with _ | n
  · rw [Cont.unwrap] at hu; cases hu
  rw [Cont.unwrap] at hu
  obtain ⟨hkeys, hdata⟩ := unwrapKeys_inv hu
  have hmem : ∀ {k : Str} {w : PyVal}, PyPair.mk k w ∈ (data.filter fun p => !hasItem ls p.key) ↔ PyPair.mk k w ∈ data ∧ k ∉ c.dict := fun {k w} => by
    rw [List.mem_filter, Bool.not_eq_true', ← Bool.not_eq_true, R.ed.has]
    exact Iff.rfl
  have hnone : ∀ {k : Str}, k ∉ c.dict → mapGet k c.map = none := fun {k} hk => by
    rcases hm : mapGet k c.map with _ | is
    · rfl
    · exact absurd ((R.ed.doc.wf.dictMem k).2 (by rw [hm]; rfl)) hk
  have htk : ∀ k, k ∈ (data.filter fun p => !hasItem ls p.key).map PyPair.key ↔ k ∈ t.dict := fun k => by
    constructor
    · intro hk
      obtain ⟨⟨k', w⟩, h1, h2⟩ := List.mem_map.1 hk
      have : k' = k := h2
      subst this
      obtain ⟨h3, h4⟩ := hmem.1 h1
      have : k' ∈ doc.dict := by rw [← hkeys]; exact List.mem_map_of_mem (f := PyPair.key) h3
      exact ((R.old.dict k').1 this).resolve_left h4
    · intro hk
      have h1 : k ∈ doc.dict := (R.old.dict k).2 (.inr hk)
      rw [← hkeys] at h1
      obtain ⟨⟨k', w⟩, h5, h2⟩ := List.mem_map.1 h1
      have : k' = k := h2
      subst this
      refine List.mem_map.2 ⟨.mk k' w, hmem.2 ⟨h5, fun hc => ?_⟩, rfl⟩
      obtain ⟨is, hm⟩ := Option.isSome_iff_exists.1 ((R.ed.doc.wf.dictMem k').1 hc)
      have := (htw.dictMem k').1 hk
      rw [(R.old.line k' is hm).2] at this
      cases this
  have hW : ((data.filter fun p => !hasItem ls p.key).map PyPair.key).Nodup :=
    List.Nodup.sublist (List.Sublist.map _ List.filter_sublist) (by rw [hkeys]; exact hdw.dictNodup)
  have hw' : ∀ k w, PyPair.mk k w ∈ (data.filter fun p => !hasItem ls p.key) → ∃ n, unwrapKey n t k = .ok w := fun k w hk => by
    obtain ⟨h1, h2⟩ := hmem.1 hk
    obtain ⟨m, hm⟩ := hdata k w h1
    exact ⟨m, by rw [← R.old.unwrapTable R.good (hnone h2)]; exact hm⟩
  have hI : c'.dict = (itemsOf (linesAfter ls es)).map PyPair.key := by rw [R.ed'.doc.keys, R.ed'.rows.keys]
  have hIn : ((itemsOf (linesAfter ls es)).map PyPair.key).Nodup := by rw [← hI]; exact R.ed'.doc.wf.dictNodup
  obtain ⟨w, ⟨n1, q1⟩, _, q3⟩ := R.new.unwrap R.good R.ed'.doc.wf (docAfter_wf hdw es) hIn hW (fun k => by rw [hI]) htk (fun k w hk => R.ed'.item hk) hw'
  obtain ⟨w', ⟨n2, g1⟩, _, g3⟩ := R.back.unwrap R.good R.wf hdw' hIn hW (fun k => by rw [R.dict, hI]) htk R.items hw'
  exact ⟨doc', w, w', R.reads, ⟨n1 + n2, fun n hn => ⟨q1 n (by omega), g1 n (by omega)⟩⟩, q3, g3⟩

/-- C33 for documents with tables, edited above the tables: every comment above the tables that no edit removes, and every comment added, is read back in its
place among the others, and there are no other comments above the tables; the comments of the tables are the same. -/
theorem C33_above_tables_partial (s : Str) (doc : Cont) (ls : List Line) (es : List Edit) (h : parseLog s = .ok (doc, [])) (hn : NoLoneCr s)
    (hd : ∀ e ∈ doc.body, isDottedKey e.key = false) (hw : ∀ e ∈ linePart doc, ∀ c ∈ e.v.trivia.commentWs, isSpaces c = true)
    (hl : LinesOf (linePart doc) ls) (he : ∀ e ∈ es, e.Fit) (ha : ∀ e ∈ es, e.Above doc) :
    ∃ doc', parse (dumps (docAfter doc es)) = .ok doc' ∧ tablePart doc' = tablePart doc ∧
      ListRel EqualUpToSpaces ((linePart doc').flatMap fun e => if e.v.trivia.comment.isEmpty then [] else [e.v.trivia.comment]) (notesOf (linesAfter ls es)) := by
  obtain ⟨doc', c, t, c', c2, R⟩ := above_edits h hn hd hw hl he ha
  have p1 := R.old.parts R.ed.doc.flat R.tables
  have p3 := R.back.parts R.flat R.tables
  refine ⟨doc', R.reads, by rw [p3.2, p1.2], ?_⟩
  rw [p3.1]
  have := R.comments
  unfold Cont.comments at this
  rw [this]
  exact R.ed'.rows.notesLoose

/-! ### an example -/

/-- lines with comments, then tables with sub-tables, an array of tables and a table in two places -/
def tabledText : Str := t!"# top\n  a = 1 # one\nb=[ 1, # in\n 2 ]\n\n[t] # tee\nx = 1\n[[l]]\ny = 2\n  [l.s]\n[u]\n[t.v]\nz = 'q'\n"

/-- `a` replaced, `n` new, `b` given a comment, `n` replaced, `a` deleted, `o` new -/
def lineChanges : List Edit :=
  [.set (t!"a") (.str (t!"x")) .none, .set (t!"n") (.list [.int 1]) .none, .note (t!"b") (t!"three"), .set (t!"n") (.dict [.mk (t!"p") (.int 1)]) .array,
   .remove (t!"a"), .add (t!"o") (.bool true) .none]

def tabledOutcome : Str := t!"# top\nb=[ 1, # in\n 2 ] # three\nn = {p = 1}\no = true\n\n[t] # tee\nx = 1\n[[l]]\ny = 2\n  [l.s]\n[u]\n[t.v]\nz = 'q'\n"

/-- what the theorems ask of the text -/
def meetsAbove (r : Except Err (Cont × List Loss)) (es : List Edit) (out : Str) : Bool :=
  match r with
  | .error _ => false
  | .ok (doc, l) => l.isEmpty && doc.body.all (fun e => !isDottedKey e.key) && (linePart doc).all (fun e => e.v.trivia.commentWs.all isSpaces) &&
      (linesOf? 20 (linePart doc)).isSome && decide (dumps (docAfter doc es) = out) && (doc.unwrap 50).toOption.isSome &&
      es.all (fun e => match e.key? with
        | none => false
        | some k => (tablePart doc).all fun x => x.key.map SKey.key != some k) && decide ((tablePart doc).length = 4)

theorem meetsAbove_spec {s out : Str} {es : List Edit} (h : meetsAbove (parseLog s) es out = true) : ∃ doc ls data, parseLog s = .ok (doc, []) ∧
    (∀ e ∈ doc.body, isDottedKey e.key = false) ∧ (∀ e ∈ linePart doc, ∀ c ∈ e.v.trivia.commentWs, isSpaces c = true) ∧ LinesOf (linePart doc) ls ∧
    (∀ e ∈ es, e.Above doc) ∧ doc.unwrap 50 = .ok data ∧ dumps (docAfter doc es) = out := by
  unfold meetsAbove at h
  rcases hp : parseLog s with e | ⟨doc, l⟩ <;> rw [hp] at h
  · cases h
  simp only [Bool.and_eq_true, List.all_eq_true, decide_eq_true_eq, Bool.not_eq_true'] at h
  obtain ⟨⟨⟨⟨⟨⟨⟨h1, h2⟩, h3⟩, h4⟩, h5⟩, h6⟩, h7⟩, _⟩ := h
  obtain ⟨ls, hls⟩ := Option.isSome_iff_exists.1 h4
  obtain ⟨data, hu⟩ := Option.isSome_iff_exists.1 h6
  refine ⟨doc, ls, data, by rw [List.isEmpty_iff.1 h1], h2, h3, linesOf?_sound hls, fun e he => ?_, ?_, h5⟩
  · have := h7 e he
    rcases hk : e.key? with _ | k <;> rw [hk] at this
    · cases this
    · refine ⟨k, hk, fun x hx hxk => ?_⟩
      have := List.all_eq_true.1 this x hx
      rw [hxk] at this
      simp at this
  · rcases hx : doc.unwrap 50 with e | d <;> rw [hx] at hu <;> cases hu
    rfl

set_option maxRecDepth 10000 in
theorem tabledText_meets : meetsAbove (parseLog tabledText) lineChanges tabledOutcome = true := by decide +kernel

theorem lineChanges_fit : ∀ e ∈ lineChanges, e.Fit := by
  simp [lineChanges, Edit.Fit, OneLine, KeysOnce, KeysOnceIn, KeysOncePair, KeysOnceAll, Writable, Throughout, ThroughoutIn, ThroughoutPair, ThroughoutAll, Proper,
    PyVal.isDict, OneLineText]
  decide

theorem tabledText_cr : NoLoneCr tabledText := by simp [tabledText, NoLoneCr]

/-- the theorems apply to this text and these changes -/
example : ∃ (doc doc' : Cont) (ls : List Line) (data w' : List PyPair), parseLog tabledText = .ok (doc, []) ∧ parse tabledOutcome = .ok doc' ∧ tablePart doc' = tablePart doc ∧
    (∃ n, doc'.unwrap n = .ok w') ∧ Same (.dict (itemsOf (linesAfter ls lineChanges) ++ data.filter fun p => !hasItem ls p.key)) (.dict w') := by
  obtain ⟨doc, ls, data, h1, h2, h3, h4, h5, h6, h7⟩ := meetsAbove_spec tabledText_meets
  obtain ⟨_, _, doc', g1, _, g3, _⟩ := C42_tables_below_untouched tabledText doc ls lineChanges h1 tabledText_cr h2 h3 h4 lineChanges_fit h5
  obtain ⟨doc2, w, w', k1, ⟨n, k2⟩, _, k4⟩ := C18_above_tables_partial tabledText doc ls lineChanges h1 tabledText_cr h2 h3 h4 lineChanges_fit h5 50 data h6
  rw [g1] at k1
  cases k1
  rw [h7] at g1
  exact ⟨doc, doc', ls, data, w', h1, g1, g3, ⟨n, (k2 n (Nat.le_refl _)).2⟩, k4⟩

end Tomlkit
