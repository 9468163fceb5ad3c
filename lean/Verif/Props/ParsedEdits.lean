import Verif.Proofs.ParsedRows
import Verif.Props.FlatEdits
import Verif.Props.Lossless
/-!
# Editing documents of key/value lines that were read: C18, C33
-/
namespace Tomlkit
open _root_.Spec Tomlkit.Spec

/-- C18 for documents without tables that were read: `parse(s)`, whose lines are `ls`, then any sequence of assignments, additions,
deletions, comments and blank lines. `parse(dumps(doc))` succeeds again, and the data of both is the dict that the same edits
make of the lines, in the same order of keys. Edits that raise leave the document as it was.

`parseLog s = .ok (doc, [])` says that the text is accepted with nothing given up (C01); `hw` leaves out unusual white space behind a
date; comments and blank lines are added only when the last line of the text has its end (`C33_counterexample_open_line`). Missing: documents with
tables, multi-line strings put in by the edits. -/
theorem C18_parsed_edits_parse_partial (s : Str) (doc : Cont) (ls : List Line) (es : List Edit) (h : parseLog s = .ok (doc, []))
    (hf : Flat doc) (hn : NoLoneCr s) (hw : ∀ e ∈ doc.body, ∀ c ∈ e.v.trivia.commentWs, isSpaces c = true) (hl : LinesOf doc.body ls)
    (he : ∀ e ∈ es, e.Fit) (hz : ∀ e ∈ es, e.addsLine → s = [] ∨ s.getLast? = some 10) :
    ∃ doc' w, parse (dumps (docAfter doc es)) = .ok doc' ∧ doc'.dict = (itemsOf (linesAfter ls es)).map PyPair.key ∧
      (∃ n0, ∀ n ≥ n0, (docAfter doc es).unwrap n = .ok w ∧ doc'.unwrap n = .ok w) ∧
      w.map PyPair.key = (itemsOf (linesAfter ls es)).map PyPair.key ∧ Same (.dict (itemsOf (linesAfter ls es))) (.dict w) := by
  obtain ⟨doc', w, h1, h2, h3, h4, h5, _⟩ := ((parsed_ed h hf hn hw hl).after es he hz).reads
  exact ⟨doc', w, h1, h2, h3, h4, h5⟩

/-- C33 for documents without tables that were read: every comment of the text that no edit removes, and every comment added, is read back in
its place among the others, and there are no other comments. A comment put behind an item may gain the spaces that stood at the end of its line
(`C33_counterexample_trailing`). -/
theorem C33_parsed_comments_read_back_partial (s : Str) (doc : Cont) (ls : List Line) (es : List Edit) (h : parseLog s = .ok (doc, []))
    (hf : Flat doc) (hn : NoLoneCr s) (hw : ∀ e ∈ doc.body, ∀ c ∈ e.v.trivia.commentWs, isSpaces c = true) (hl : LinesOf doc.body ls)
    (he : ∀ e ∈ es, e.Fit) (hz : ∀ e ∈ es, e.addsLine → s = [] ∨ s.getLast? = some 10) :
    ∃ doc', parse (dumps (docAfter doc es)) = .ok doc' ∧ ListRel EqualUpToSpaces doc'.comments (notesOf (linesAfter ls es)) := by
  have h := (parsed_ed h hf hn hw hl).after es he hz
  obtain ⟨doc', w, h1, _, _, _, _, h6⟩ := h.reads
  exact ⟨doc', h1, by rw [h6]; exact h.rows.notesLoose⟩

/-- the condition on the document holds when the text has no white space but blanks, tabs and line ends -/
theorem C18_plain_space (s : Str) (doc : Cont) (h : parseLog s = .ok (doc, [])) (hf : Flat doc) (hn : NoLoneCr s) (hu : PlainSpace s) :
    ∀ e ∈ doc.body, ∀ c ∈ e.v.trivia.commentWs, isSpaces c = true := parsed_cws h hf hn hu

/-- C18 in terms of the text: an accepted text that is ordinary (`Calm`, as in C01), has no unusual white space and no tables. -/
theorem C18_ordinary_edits_parse_partial (s : Str) (doc : Cont) (ls : List Line) (es : List Edit) (hc : Calm s) (hu : PlainSpace s)
    (h : parse s = .ok doc) (hf : Flat doc) (hl : LinesOf doc.body ls) (he : ∀ e ∈ es, e.Fit)
    (hz : ∀ e ∈ es, e.addsLine → s = [] ∨ s.getLast? = some 10) :
    ∃ doc' w, parse (dumps (docAfter doc es)) = .ok doc' ∧ doc'.dict = (itemsOf (linesAfter ls es)).map PyPair.key ∧
      (∃ n0, ∀ n ≥ n0, (docAfter doc es).unwrap n = .ok w ∧ doc'.unwrap n = .ok w) ∧
      w.map PyPair.key = (itemsOf (linesAfter ls es)).map PyPair.key ∧ Same (.dict (itemsOf (linesAfter ls es))) (.dict w) := by
  have hlog := parse_calm hc h
  have hn : NoLoneCr s := by
    have hcr := hc.cr
    clear hc hu h hl hz hlog
    induction s with
    | nil => trivial
    | cons c r ih =>
      refine ⟨fun h => ?_, ih fun p q hpq => hcr (c :: p) q (by rw [hpq]; rfl)⟩
      subst h
      exact hcr [] r rfl
  exact C18_parsed_edits_parse_partial s doc ls es hlog hf hn (parsed_cws hlog hf hn hu) hl he hz

/-! ### an example -/

/-- the lines of the entries, reading each value with this much fuel -/
def linesOf? (n : Nat) : List Entry → Option (List Line)
  | [] => some []
  | .mk none (.comment t) :: r => if t.comment = [] then none else (linesOf? n r).map (.comment t.comment :: ·)
  | .mk none v :: r => if v.trivia.comment = [] then linesOf? n r else none
  | .mk (some k) v :: r => match v.unwrap n with
    | .error _ => none
    | .ok w => (linesOf? n r).map (.item k.key w (if v.trivia.comment = [] then none else some v.trivia.comment) :: ·)

theorem linesOf?_sound {n : Nat} {es : List Entry} {ls : List Line} (h : linesOf? n es = some ls) : LinesOf es ls := by
  induction es generalizing ls with
  | nil => cases h; exact .nil
  | cons e r ih =>
    obtain ⟨k, v⟩ := e
    rcases k with _ | k
    · by_cases hv : ∃ t, v = .comment t
      · obtain ⟨t, rfl⟩ := hv
        rw [linesOf?] at h
        split at h
        · cases h
        · rename_i h0
          rcases hr : linesOf? n r with _ | m <;> rw [hr] at h <;> cases h
          exact .comment h0 (ih hr)
      · rw [linesOf?] at h
        · split at h
          · rename_i h0
            exact .blank h0 (ih h)
          · cases h
        · intro t ht; exact hv ⟨t, ht⟩
    · rw [linesOf?] at h
      rcases hv : v.unwrap n with e | w <;> rw [hv] at h
      · cases h
      · rcases hr : linesOf? n r with _ | m <;> simp only [hr] at h <;> cases h
        exact .item ⟨n, hv⟩ (ih hr)

/-- a text with comments, a blank line, CRLF, an array over two lines with a comment in it, a multi-line string, an inline table, a date with blanks
behind it and odd spacing -/
def someText : Str := t!"# top\n\n  a = 1 # one\n'b c'=[ 1, # in\n 2 ]\t\x0d\nd = \"\"\"x\ny\"\"\"  # two \ne={p.q=1, r = [1]}   \n# mid\nf = 1979-05-27 \n"

/-- `a` replaced, a comment, `e` given a comment, `d` deleted, a new key, a blank line, `f` replaced by an inline table, `a` added again -/
def someChanges : List Edit :=
  [.set (t!"a") (.list [.int 1, .str (120 :: 10 :: t!"y")]) .none, .comment (t!"last"), .note (t!"e") (t!"three"), .remove (t!"d"),
   .set (t!"new key") (.bool true) .none, .nl, .set (t!"f") (.dict [.mk (t!"p") (.int 1)]) .array, .add (t!"a") (.int 2) .none]

theorem someChanges_fit : ∀ e ∈ someChanges, e.Fit := by
  simp [someChanges, Edit.Fit, OneLine, KeysOnce, KeysOnceIn, KeysOncePair, KeysOnceAll, Writable, Throughout, ThroughoutIn, ThroughoutPair, ThroughoutAll, Proper,
    PyVal.isDict, OneLineText]
  decide

/-- the text after these changes -/
def someOutcome : Str := t!"# top\n\n  a = [1, \"x\\ny\"] # one\n'b c'=[ 1, # in\n 2 ]\t\x0d\ne={p.q=1, r = [1]} # three   \n# mid\nf = {p = 1} \n# last\n\"new key\" = true\n\n"

/-- what the theorems ask of the text -/
def meets (s : Str) (r : Except Err (Cont × List Loss)) (es : List Edit) (out : Str) : Bool :=
  match r with
  | .error _ => false
  | .ok (doc, l) => l.isEmpty && doc.body.all (fun e => !e.v.isTableLike) && doc.body.all (fun e => e.v.trivia.commentWs.all isSpaces) &&
      (linesOf? 20 doc.body).isSome && decide (dumps (docAfter doc es) = out) && decide (s.getLast? = some 10)

theorem meets_spec {s out : Str} {es : List Edit} (h : meets s (parseLog s) es out = true) : ∃ doc ls, parseLog s = .ok (doc, []) ∧ Flat doc ∧
    (∀ e ∈ doc.body, ∀ c ∈ e.v.trivia.commentWs, isSpaces c = true) ∧ LinesOf doc.body ls ∧ dumps (docAfter doc es) = out ∧ s.getLast? = some 10 := by
  unfold meets at h
  rcases hp : parseLog s with e | ⟨doc, l⟩ <;> rw [hp] at h
  · cases h
  simp only [Bool.and_eq_true, List.all_eq_true, decide_eq_true_eq, Bool.not_eq_true'] at h
  obtain ⟨⟨⟨⟨⟨h1, h2⟩, h3⟩, h4⟩, h5⟩, h6⟩ := h
  obtain ⟨ls, hls⟩ := Option.isSome_iff_exists.1 h4
  refine ⟨doc, ls, by rw [List.isEmpty_iff.1 h1], h2, h3, linesOf?_sound hls, h5, h6⟩

theorem someText_cr : NoLoneCr someText := by
  simp [someText, NoLoneCr]

set_option maxRecDepth 10000 in
theorem someText_meets : meets someText (parseLog someText) someChanges someOutcome = true := by decide +kernel

/-- the theorems apply to this text and these changes -/
example : ∃ doc ls doc' w, parseLog someText = .ok (doc, []) ∧ dumps (docAfter doc someChanges) = someOutcome ∧ parse someOutcome = .ok doc' ∧
    w.map PyPair.key = (itemsOf (linesAfter ls someChanges)).map PyPair.key ∧ Same (.dict (itemsOf (linesAfter ls someChanges))) (.dict w) ∧
    ListRel EqualUpToSpaces doc'.comments (notesOf (linesAfter ls someChanges)) := by
  obtain ⟨doc, ls, h1, h2, h3, h4, h5, h6⟩ := meets_spec someText_meets
  obtain ⟨doc', w, g1, _, _, g4, g5⟩ := C18_parsed_edits_parse_partial someText doc ls someChanges h1 h2 someText_cr h3 h4 someChanges_fit fun _ _ _ => .inr h6
  obtain ⟨doc2, k1, k2⟩ := C33_parsed_comments_read_back_partial someText doc ls someChanges h1 h2 someText_cr h3 h4 someChanges_fit fun _ _ _ => .inr h6
  rw [g1] at k1
  cases k1
  exact ⟨doc, ls, doc', w, h1, h5, by rw [← h5]; exact g1, g4, g5, k2⟩

set_option maxRecDepth 10000 in
/-- Exact equality is false in C33: `parse("a = 1  \n")`, then `doc.item("a").comment("x")`, is read back as the comment `# x  `. -/
theorem C33_counterexample_trailing :
    ((parse (t!"a = 1  \n")).toOption.map fun c => dumps (docAfter c [.note (t!"a") (t!"x")])) = some (t!"a = 1 # x  \n") ∧
    ((parse (t!"a = 1 # x  \n")).toOption.map fun c => c.comments) = some [t!"# x  "] := ⟨by decide +kernel, by decide +kernel⟩

end Tomlkit
