import Verif.Proofs.FlatRows
/-!
# Editing documents of key/value lines: C18, C33
-/
namespace Tomlkit
open _root_.Spec Tomlkit.Spec

theorem Rows.entry {q : Prop} {es : List Entry} {ls : List Line} (h : Rows q es ls) {k : SKey} {v : Item} (he : Entry.mk (some k) v ∈ es) :
    ∃ w, PyPair.mk k.key w ∈ itemsOf ls ∧ Worth w v := by
  induction h with
  | nil => cases he
  | none _ _ ih =>
    rcases List.mem_cons.1 he with h | h
    · cases h
    · exact ih h
  | cmt _ _ ih =>
    rcases List.mem_cons.1 he with h | h
    · cases h
    · obtain ⟨w, h1, h2⟩ := ih h
      exact ⟨w, h1, h2⟩
  | @kv k' v' w cm es ls hw ht _ ih =>
    have e : itemsOf (.item k'.key w cm :: ls) = .mk k'.key w :: itemsOf ls := rfl
    rw [e]
    rcases List.mem_cons.1 he with h | h
    · cases h
      exact ⟨w, by simp, hw⟩
    · obtain ⟨w, h1, h2⟩ := ih h
      exact ⟨w, by simp [h1], h2⟩

/-- what the key reads -/
theorem Ed.item {q z : Prop} {c : Cont} {ls : List Line} (h : Ed q z c ls) {k : Str} {w : PyVal} (hk : PyPair.mk k w ∈ itemsOf ls) :
    ∃ v, c.item k = .ok (.inl v) ∧ Worth w v := by
  have hd : c.dict = (itemsOf ls).map PyPair.key := by rw [h.doc.keys, h.rows.keys]
  have hn := h.doc.wf.dictNodup
  have hmem : k ∈ c.dict := by rw [hd]; exact List.mem_map_of_mem (f := PyPair.key) hk
  obtain ⟨is, hm⟩ := Option.isSome_iff_exists.1 ((h.doc.wf.dictMem k).1 hmem)
  obtain ⟨i, key, old, rfl, hb, hkk, _⟩ := single_of_plain h.doc.wf (flat_holds h.doc.flat) hm
  obtain ⟨w', h1, h2⟩ := h.rows.entry (List.mem_of_getElem? hb)
  rw [hkk] at h1
  rw [hd] at hn
  rw [pair_unique hn hk h1]
  exact ⟨old, item_single.2 ⟨i, _, hm, hb, rfl⟩, h2⟩

theorem worth_unwrapKeys {c : Cont} (l : List PyPair) (h : ∀ k w, PyPair.mk k w ∈ l → ∃ v, c.item k = .ok (.inl v) ∧ Worth w v) :
    ∃ l', (∃ n0, ∀ n ≥ n0, unwrapKeys n c (l.map PyPair.key) = .ok l') ∧ l'.map PyPair.key = l.map PyPair.key ∧
      ∀ k w, PyPair.mk k w ∈ l → ∃ w', PyPair.mk k w' ∈ l' ∧ Same w w' := by
  induction l with
  | nil => exact ⟨[], ⟨1, fun n hn => by
      obtain ⟨m, rfl⟩ : ∃ m, n = m + 1 := ⟨n - 1, by omega⟩
      rw [List.map_nil, unwrapKeys]⟩, rfl, (by intro k w h; cases h)⟩
  | cons p r ih =>
    obtain ⟨l', ⟨n1, h1⟩, h2, h3⟩ := ih fun k w hk => h k w (by simp [hk])
    obtain ⟨k, w⟩ := p
    obtain ⟨v, q1, w', ⟨n2, q2⟩, q3⟩ := h k w (by simp)
    refine ⟨.mk k w' :: l', ⟨n1 + n2 + 2, fun n hn => ?_⟩, by rw [List.map_cons, List.map_cons, h2]; rfl, ?_⟩
    · obtain ⟨m, rfl⟩ : ∃ m, n = m + 2 := ⟨n - 2, by omega⟩
      rw [List.map_cons, unwrapKeys, PyPair.key_mk, unwrapKey, q1]
      dsimp only
      rw [q2 m (by omega), h1 (m + 1) (by omega)]
      rfl
    · intro k' w1 hk
      rcases List.mem_cons.1 hk with h0 | h0
      · cases h0; exact ⟨w', by simp, q3⟩
      · obtain ⟨w2, h4, h5⟩ := h3 k' w1 h0
        exact ⟨w2, by simp [h4], h5⟩

/-- The text of an edited document of lines is read back, with the same data. -/
theorem Ed.reads {q z : Prop} {c : Cont} {ls : List Line} (h : Ed q z c ls) : ∃ doc w, parse (dumps c) = .ok doc ∧
    doc.dict = (itemsOf ls).map PyPair.key ∧ (∃ n0, ∀ n ≥ n0, c.unwrap n = .ok w ∧ doc.unwrap n = .ok w) ∧
    w.map PyPair.key = (itemsOf ls).map PyPair.key ∧ Same (.dict (itemsOf ls)) (.dict w) ∧ doc.comments = commentsOf c.body := by
  have hd : c.dict = (itemsOf ls).map PyPair.key := by rw [h.doc.keys, h.rows.keys]
  obtain ⟨doc, h1, h2, h3, h4, n1, h5⟩ := h.doc.reads
  obtain ⟨w, ⟨n2, q1⟩, q2, q3⟩ := worth_unwrapKeys (c := c) (itemsOf ls) fun k w hk => h.item hk
  refine ⟨doc, w, h1, by rw [h2, hd], ⟨n1 + n2 + 1, fun n hn => ?_⟩, q2, ?_, h4⟩
  · have hc : c.unwrap n = .ok w := by
      obtain ⟨m, rfl⟩ : ∃ m, n = m + 1 := ⟨n - 1, by omega⟩
      rw [Cont.unwrap, hd]
      exact q1 m (by omega)
    exact ⟨hc, by rw [h5 n (by omega), hc]⟩
  · unfold Same
    refine ⟨w, rfl, ?_, sameIn_of q3⟩
    have := congrArg List.length q2
    simpa using this.symm

theorem Ed.empty (q : Prop) : Ed q True (.empty false) [] :=
  ⟨⟨Cont.WF_empty _, trivial, rfl, rfl⟩, (by intro _ e he; cases he), .nil⟩

/-- C18 for documents built from nothing: after any sequence of assignments, additions, deletions, comments and blank lines on a new
document, `parse(dumps(doc))` succeeds, and `doc.unwrap()` and `parse(dumps(doc)).unwrap()` are both the dict that the same edits
make, with the same order of keys. Edits that raise (a key added twice, a missing key deleted) leave the document as it was. -/
theorem C18_edits_parse_partial (es : List Edit) (he : ∀ e ∈ es, e.Fit) :
    ∃ doc w, parse (dumps (docAfter (.empty false) es)) = .ok doc ∧ doc.dict = (itemsOf (linesAfter [] es)).map PyPair.key ∧
      (∃ n0, ∀ n ≥ n0, (docAfter (.empty false) es).unwrap n = .ok w ∧ doc.unwrap n = .ok w) ∧
      w.map PyPair.key = (itemsOf (linesAfter [] es)).map PyPair.key ∧ Same (.dict (itemsOf (linesAfter [] es))) (.dict w) := by
  obtain ⟨doc, w, h1, h2, h3, h4, h5, _⟩ := ((Ed.empty True).after es he (fun _ _ _ => trivial)).reads
  exact ⟨doc, w, h1, h2, h3, h4, h5⟩

/-- C33 for documents built from nothing: every comment added with `doc.add(comment(text))` or `doc.item(k).comment(text)` is
read back as one comment with its text, in its place among the others, and there are no other comments. -/
theorem C33_comments_read_back_partial (es : List Edit) (he : ∀ e ∈ es, e.Fit) :
    ∃ doc, parse (dumps (docAfter (.empty false) es)) = .ok doc ∧ doc.comments = notesOf (linesAfter [] es) := by
  have h := (Ed.empty True).after es he (fun _ _ _ => trivial)
  obtain ⟨doc, w, h1, _, _, _, _, h6⟩ := h.reads
  exact ⟨doc, h1, by rw [h6, h.rows.notes]⟩

/-- `doc["b"] = [1, "x\ny"]`, a comment, `doc["a"] = {"p": 1}` as an inline table, a comment with `#` behind it, a blank line, a third key,
`doc["a"]` again, the comment behind `b` changed, `c` deleted, `b` added a second time. -/
def someEdits : List Edit :=
  [.set (t!"b") (.list [.int 1, .str (120 :: 10 :: t!"y")]) .none, .comment (t!"first"), .set (t!"a") (.dict [.mk (t!"p") (.int 1)]) .array,
   .note (t!"a") (t!" # mine "), .nl, .set (t!"c d") (.bool true) .none, .set (t!"a") (.list [.dict [.mk (t!"q") (.str (t!"#"))]]) .array,
   .note (t!"b") (t!"more"), .add (t!"e") (.int (-7)) .none, .remove (t!"c d"), .add (t!"b") (.int 2) .none]

theorem someEdits_fit : ∀ e ∈ someEdits, e.Fit := by
  simp [someEdits, Edit.Fit, OneLine, KeysOnce, KeysOnceIn, KeysOncePair, KeysOnceAll, Writable, Throughout, ThroughoutIn, ThroughoutPair, ThroughoutAll, Proper,
    PyVal.isDict, OneLineText]
  decide

set_option maxRecDepth 10000 in
/-- the text after these edits -/
example : dumps (docAfter (.empty false) someEdits) =
    t!"b = [1, \"x\\ny\"] # more\n# first\na = [{q = \"#\"}]  # mine \n\ne = -7\n" := by
  decide +kernel

/-- the items and the comments the edits make -/
example : itemsOf (linesAfter [] someEdits) = [.mk (t!"b") (.list [.int 1, .str (120 :: 10 :: t!"y")]),
    .mk (t!"a") (.list [.dict [.mk (t!"q") (.str (t!"#"))]]), .mk (t!"e") (.int (-7))] ∧
    notesOf (linesAfter [] someEdits) = [t!"# more", t!"# first", t!"# mine "] := ⟨rfl, rfl⟩

example := C18_edits_parse_partial someEdits someEdits_fit
example := C33_comments_read_back_partial someEdits someEdits_fit

set_option maxRecDepth 10000 in
/-- C33 is false for a comment text with other white space in front of its `#`: `item.comment("\u00a0# x")` takes the text for a
comment and writes `a = 1 \u00a0# x`, which is not readable. -/
theorem C33_counterexample_space :
    dumps (docAfter (.empty false) [.set (t!"a") (.int 1) .none, .note (t!"a") (160 :: t!"# x")]) = t!"a = 1 " ++ 160 :: t!"# x\n" ∧
    (parse (t!"a = 1 " ++ 160 :: t!"# x\n")).toOption.isNone = true := ⟨by decide +kernel, by decide +kernel⟩

set_option maxRecDepth 10000 in
/-- C33 is false for a document whose last line has no end: `parse("a = 1")`, then `doc.add(comment("x"))`, gives `a = 1# x`: the comment
is no line of its own any more. -/
theorem C33_counterexample_open_line :
    ((parse (t!"a = 1")).toOption.map fun c => dumps (docAfter c [.comment (t!"x")])) = some (t!"a = 1# x\n") ∧
    ((parse (t!"a = 1# x\n")).toOption.map fun c => c.body.length) = some 1 := ⟨by decide +kernel, by decide +kernel⟩

set_option maxRecDepth 10000 in
/-- C18 is false for a parsed document with a no-break space somewhere behind a date: it counts as white space there; after `doc["a"] = "x"` the text
is `a = "x" \u00a0# c`, which is not readable. -/
theorem C18_counterexample_space :
    ((parse (t!"a = 2020-01-01 " ++ 160 :: t!"# c\n")).toOption.map fun c => dumps (docAfter c [.set (t!"a") (.str (t!"x")) .none])) =
      some (t!"a = \"x\" " ++ 160 :: t!"# c\n") ∧
    (parse (t!"a = \"x\" " ++ 160 :: t!"# c\n")).toOption.isNone = true := ⟨by decide +kernel, by decide +kernel⟩

end Tomlkit
