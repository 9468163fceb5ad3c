import Verif.Proofs.NearData
import Verif.Proofs.Consist
/-!
# C40: values replaced anywhere in a document that was read
-/
namespace Tomlkit
open _root_.Spec Tomlkit.Spec

theorem near_line {Q : Item → Item → Prop} (path : List Step) : ∀ {c c' : Cont} {k : Str}, c.Near Q c' →
    (lineAt path c k = none ∧ lineAt path c' k = none) ∨ ∃ key v v', lineAt path c k = some (key, v) ∧ lineAt path c' k = some (key, v') ∧ Q v v' := by
  induction path with
  | nil =>
    intro c c' k hn
    obtain ⟨n1, n2, _⟩ := near_cont hn
    unfold lineAt
    rw [n2]
    rcases mapGet k c.map with _ | is
    · exact .inl ⟨rfl, rfl⟩
    rcases is with _ | ⟨i, _ | ⟨_, _⟩⟩ <;> dsimp only <;> try exact .inl ⟨rfl, rfl⟩
    rcases n1.at i with ⟨h1, h2⟩ | ⟨⟨ke, v⟩, e', h1, h2, h3⟩
    · rw [h1, h2]; exact .inl ⟨rfl, rfl⟩
    · obtain ⟨v', rfl, h3, _⟩ := h3
      rw [h1, h2]
      rcases ke with _ | ke <;> dsimp only
      · exact .inl ⟨rfl, rfl⟩
      · rw [lineValue_simple, lineValue_simple, h3.simple]
        by_cases hs : v.isSimple = true
        · rw [if_pos hs, if_pos hs]
          exact .inr ⟨_, _, _, rfl, rfl, ((near_simple hs).1 h3).2⟩
        · rw [if_neg hs, if_neg hs]; exact .inl ⟨rfl, rfl⟩
  | cons s r ih =>
    intro c c' k hn
    obtain ⟨n1, n2, _⟩ := near_cont hn
    rcases s with s | ⟨s, j⟩ <;> unfold lineAt <;> rw [n2] <;> rcases mapGet s c.map with _ | is <;> try exact .inl ⟨rfl, rfl⟩
    all_goals rcases is with _ | ⟨i, _ | ⟨_, _⟩⟩ <;> dsimp only <;> try exact .inl ⟨rfl, rfl⟩
    all_goals rcases n1.at i with ⟨h1, h2⟩ | ⟨⟨ke, v⟩, e', h1, h2, h3⟩
    all_goals try (rw [h1, h2]; exact .inl ⟨rfl, rfl⟩)
    all_goals obtain ⟨v', rfl, h3, _⟩ := h3
    all_goals rw [h1, h2]
    all_goals try dsimp only
    · rcases v with _ | _ | _ | _ | _ | _ | _ | _ | _ | _ | _ | tb | ⟨ts, t, nm, p⟩ | _
      all_goals first
        | (have hs := h3.1; cases v' <;> first | exact .inl ⟨rfl, rfl⟩ | cases hs)
        | (cases h3; exact .inl ⟨rfl, rfl⟩)
        | (obtain ⟨_, rfl, h3⟩ := h3; exact .inl ⟨rfl, rfl⟩)
        | skip
      obtain ⟨tb', rfl, h3⟩ := h3
      exact ih (near_tbl h3).1
    · rcases v with _ | _ | _ | _ | _ | _ | _ | _ | _ | _ | _ | tb | ⟨ts, t, nm, p⟩ | _
      all_goals first
        | (have hs := h3.1; cases v' <;> first | exact .inl ⟨rfl, rfl⟩ | cases hs)
        | (cases h3; exact .inl ⟨rfl, rfl⟩)
        | (obtain ⟨_, rfl, h3⟩ := h3; exact .inl ⟨rfl, rfl⟩)
        | skip
      obtain ⟨ts', rfl, h3⟩ := h3
      dsimp only
      rcases (nearTables_iff.1 h3).at j with ⟨h1, h2⟩ | ⟨t, t', h1, h2, h3⟩
      · rw [h1, h2]; exact .inl ⟨rfl, rfl⟩
      · rw [h1, h2]; exact ih (near_tbl h3).1

theorem LineBack.same {v v' : Item} (h : LineBack v v') (key : SKey) : SameLine (some (key, v)) (some (key, v')) := by
  refine ⟨rfl, h.text, h.comment, fun w => ?_⟩
  obtain ⟨n0, hd⟩ := h.data
  constructor
  · rintro ⟨n, hn⟩
    exact ⟨n0 + n, by rw [hd _ (by omega)]; exact Item.unwrap_more hn (by omega)⟩
  · rintro ⟨n, hn⟩
    exact ⟨n0 + n, by rw [← hd _ (by omega)]; exact Item.unwrap_more hn (by omega)⟩

/-- what holds of the document after some edits -/
theorem edits_near {o : Cont} (hg : o.Good Cont.WF) : ∀ (es : List ValueEdit) (c : Cont), o.Near LineUpd c → EditsFit c es →
    ∃ c', editAll c es = .ok c' ∧ o.Near LineUpd c' ∧ ∀ p k, match lastValue es p k with
      | some w => ∃ key v, lineAt p c' k = some (key, v) ∧ Worth w v
      | none => lineAt p c' k = lineAt p c k
  | [], c, hn, _ => ⟨c, rfl, hn, fun _ _ => rfl⟩
  | e :: r, c, hn, hf => by
    obtain ⟨⟨ho, key, old, hl, hw⟩, hr⟩ := hf
    obtain ⟨v, h1, hm⟩ := oneLine_made ho
    have hnt := oneLine_noTable ho h1
    obtain ⟨w2, hfr⟩ := item_lit (q := True) e.value ho.1 ho.2.1 false e.parent v h1 hnt
    have hre : Rereads True v := hfr.lit.rereads
    have hvs : v.isSimple = true := by
      obtain ⟨g1, g2, g3, g4, _⟩ := hre
      cases v <;> first | rfl | (cases g1; done) | (cases g2; done) | (cases g3; done) | (cases g4; done)
    have hv : IsValue v := ⟨hre.1, hre.2.1, hre.2.2.2.1, hm.noComment, hm.noWs⟩
    have htr : (v.setTrivia old.trivia).trivia = old.trivia := setTrivia_trivia hre.2.1 _
    have hev : EvenWs old.trivia.commentWs := by
      refine ⟨fun c hc => ?_, hw.2⟩
      rcases hw.1 c hc with rfl | rfl <;> rfl
    obtain ⟨c1, k1, k2, k3, k4⟩ := near_set (U := LineUpd) hv hvs (old := old) (key := key) (by
      intro o0 hu
      have h0 : old.trivia = o0.trivia := by
        rcases hu with rfl | hu
        · rfl
        · exact hu.1
      exact .inr ⟨by rw [htr]; exact h0, isSimple_setTrivia hvs _, hre.setTrivia _, by rw [← h0]; exact hev⟩) e.path (h := .doc) hg hn hl
    have hrun : e.run c = .ok c1 := by
      unfold ValueEdit.run
      rw [h1]
      exact k1
    obtain ⟨c', l1, l2, l3⟩ := edits_near hg r c1 k2 (hr c1 hrun)
    refine ⟨c', ?_, l2, fun p k => ?_⟩
    · show foldE ValueEdit.run c (e :: r) = _
      rw [foldE, hrun]
      exact l1
    · have h3 := l3 p k
      unfold lastValue
      rcases hlast : lastValue r p k with _ | w <;> rw [hlast] at h3 <;> dsimp only at h3 ⊢
      · by_cases hpk : e.path = p ∧ e.key = k
        · rw [if_pos hpk]
          obtain ⟨rfl, rfl⟩ := hpk
          exact ⟨key, _, h3.trans k3, hm.worth.setTrivia _⟩
        · rw [if_neg hpk]
          dsimp only
          rw [h3]
          exact k4 p k fun h => hpk ⟨h.1.symm, h.2.symm⟩
      · exact h3

/-- **C40.** A text is read, and then any number of values are replaced by others, anywhere: in the document, in tables, under dotted keys, in elements of arrays
of tables. All assignments succeed. The text that is then written is read again, nothing given up (C01), and the two documents hold the same data.
Whatever was assigned last to a place is found there after reading; every other value is there as it was in the first text, written as it was written, with
its comment.

The text may be any that is accepted with nothing given up (C01): dotted keys, tables out of order and so on. The values are those that stay on
one line. Between a replaced value and the comment behind it there are spaces only, or spaces and tabs beginning with a tab
(`C40_counterexample_space_tab`). -/
theorem C40_value_edits_read_back (s : Str) (doc : Cont) (es : List ValueEdit) (h : parseLog s = .ok (doc, [])) (hf : EditsFit doc es) :
    ∃ doc' doc'', editAll doc es = .ok doc' ∧ parseLog (dumps doc') = .ok (doc'', []) ∧ SameData doc' doc'' ∧
      ∀ path k, match lastValue es path k with
        | some w => ∃ key v, lineAt path doc'' k = some (key, v) ∧ Holding v w
        | none => SameLine (lineAt path doc k) (lineAt path doc'' k) := by
  have hg : doc.Good Cont.WF := (parse_all s).1 doc (by unfold parse; rw [h]; rfl)
  obtain ⟨c, rfl, hcl, _, hlock⟩ := doc_lock line_hyp (fun v => .inl rfl) h
  obtain ⟨doc', h1, h2, h3⟩ := edits_near hg es _ (Cont.near_self (fun v => .inl rfl) c hcl) hf
  have hlv := Cont.Near.leaves _ _ h2
  rw [Cont.stop_leaves] at hlv
  obtain ⟨s', c', us, hfit, htw, hlog⟩ := hlock _ hlv
  have hskel : c'.stopParsing.skel = c.stopParsing.skel := by rw [Cont.stop_skel, Cont.stop_skel, htw.skel]
  have hnear : doc'.Near LineBack c'.stopParsing := by
    refine (Cont.near_of _ _ _ h2 hskel (r2 := []) (r3 := []) ?_).1
    rw [List.append_nil, List.append_nil, Cont.stop_leaves, htw.right]
    exact hfit.2
  have htext : dumps doc' = s' := by
    have := (Cont.near_text _ _ hnear).1
    rw [← parse_dumps hlog]
    exact this.symm
  refine ⟨doc', _, h1, by rw [htext]; exact hlog, near_data (Cont.Near.imp _ _ hnear fun a b hab => hab.data), fun path k => ?_⟩
  have h4 := h3 path k
  rcases hlast : lastValue es path k with _ | w <;> rw [hlast] at h4 <;> dsimp only at h4 ⊢
  · rw [← h4]
    rcases near_line path (k := k) hnear with ⟨g1, g2⟩ | ⟨key, v, v', g1, g2, g3⟩
    · rw [g1, g2]; trivial
    · rw [g1, g2]; exact g3.same key
  · obtain ⟨key, v, g1, w', ⟨n0, hw⟩, hs⟩ := h4
    rcases near_line path (k := k) hnear with ⟨k1, _⟩ | ⟨key', v1, v', k1, k2, k3⟩
    · rw [g1] at k1; cases k1
    · rw [g1] at k1
      cases k1
      exact ⟨_, v', k2, w', ((k3.same key).2.2.2 w').1 ⟨n0, hw n0 (Nat.le_refl _)⟩, hs⟩

/-! ### an example -/

/-- a text with tables, one of them in two places, dotted keys, an array of tables, comments, and no line end at its end -/
def deepText : Str := t!"title = 'x' # t\n\n[server . http]  # web\nport= 80\t# p\nhost.name = \"h\"\nhost.ip = [1,\n 2]\n[other]\na.b.c = 1\nt = {x = 1}\n[server.ftp]\nport = 21\n\n[[user]]\nname = 'u'\n[user.home]\ndir = '/'\n[[user]]\nname = 'v'  # last\nborn = 1979-05-27 "

/-- values replaced in the document, below a dotted key, in an element, in a table of an element, twice at the same place -/
def deepEdits : List ValueEdit := [⟨[], t!"title", .list [.int 1, .str (t!"y")], .none⟩, ⟨[.key (t!"other"), .key (t!"a"), .key (t!"b")], t!"c", .bool true, .none⟩,
  ⟨[.elem (t!"user") 1], t!"name", .date ⟨2001,1,2⟩, .none⟩, ⟨[.elem (t!"user") 0, .key (t!"home")], t!"dir", .dict [.mk (t!"p") (.int 1)], .array⟩,
  ⟨[.elem (t!"user") 1], t!"born", .int 5, .none⟩, ⟨[.elem (t!"user") 1], t!"name", .str (t!"w"), .none⟩, ⟨[.key (t!"other")], t!"t", .int 7, .none⟩]

/-- the text after these edits -/
def deepOutcome : Str := t!"title = [1, \"y\"] # t\n\n[server . http]  # web\nport= 80\t# p\nhost.name = \"h\"\nhost.ip = [1,\n 2]\n[other]\na.b.c = true\nt = 7\n[server.ftp]\nport = 21\n\n[[user]]\nname = 'u'\n[user.home]\ndir = {p = 1}\n[[user]]\nname = \"w\"  # last\nborn = 5 "

/-- the part of the conditions that is checked by running the edits -/
def editsMeet : Cont → List ValueEdit → Bool
  | _, [] => true
  | c, e :: r => (match lineAt e.path c e.key with
      | some (_, old) => old.trivia.commentWs.all (fun x => x == 32)
      | none => false) && (match e.run c with
      | .ok c' => editsMeet c' r
      | .error _ => true)

theorem editsMeet_spec : ∀ (es : List ValueEdit) (c : Cont), editsMeet c es = true → (∀ e ∈ es, OneLine e.value e.parent) → EditsFit c es
  | [], _, _, _ => trivial
  | e :: r, c, h, ho => by
    rw [editsMeet, Bool.and_eq_true] at h
    refine ⟨⟨ho e (by simp), ?_⟩, fun c' hc => ?_⟩
    · have h1 := h.1
      rcases hl : lineAt e.path c e.key with _ | ⟨key, old⟩ <;> rw [hl] at h1
      · cases h1
      · simp only [List.all_eq_true, beq_iff_eq] at h1
        exact ⟨key, old, rfl, fun c hc => .inl (h1 c hc), .inl h1⟩
    · have h2 := h.2
      rw [hc] at h2
      exact editsMeet_spec r c' h2 fun e' he' => ho e' (by simp [he'])

theorem deepEdits_oneLine : ∀ e ∈ deepEdits, OneLine e.value e.parent := by
  simp [deepEdits, OneLine, KeysOnce, KeysOnceIn, KeysOncePair, KeysOnceAll, Writable, Throughout, ThroughoutIn, ThroughoutPair, ThroughoutAll, Proper, PyVal.isDict, ValidDate]

/-- what is checked by running the model -/
def deepMeets (r : Except Err (Cont × List Loss)) (es : List ValueEdit) (out : Str) : Bool :=
  match r with
  | .error _ => false
  | .ok (doc, l) => l.isEmpty && editsMeet doc es && (match editAll doc es with
    | .ok c => decide (dumps c = out)
    | .error _ => false)

theorem deepMeets_spec {s out : Str} {es : List ValueEdit} (h : deepMeets (parseLog s) es out = true) (ho : ∀ e ∈ es, OneLine e.value e.parent) :
    ∃ doc c, parseLog s = .ok (doc, []) ∧ EditsFit doc es ∧ editAll doc es = .ok c ∧ dumps c = out := by
  unfold deepMeets at h
  rcases hp : parseLog s with e | ⟨doc, l⟩ <;> rw [hp] at h
  · cases h
  simp only [Bool.and_eq_true] at h
  obtain ⟨⟨h1, h2⟩, h3⟩ := h
  rcases hc : editAll doc es with e | c <;> rw [hc] at h3
  · cases h3
  · exact ⟨doc, c, by rw [List.isEmpty_iff.1 h1], editsMeet_spec es doc h2 ho, hc, of_decide_eq_true h3⟩

set_option maxRecDepth 10000 in
theorem deepText_meets : deepMeets (parseLog deepText) deepEdits deepOutcome = true := by decide +kernel

/-- the theorem applies to this text and these edits -/
example : ∃ doc doc' doc'', parseLog deepText = .ok (doc, []) ∧ editAll doc deepEdits = .ok doc' ∧ dumps doc' = deepOutcome ∧ parseLog deepOutcome = .ok (doc'', []) ∧
    SameData doc' doc'' ∧ (∃ key v, lineAt [.elem (t!"user") 1] doc'' (t!"name") = some (key, v) ∧ Holding v (.str (t!"w"))) ∧
    SameLine (lineAt [.elem (t!"user") 0] doc (t!"name")) (lineAt [.elem (t!"user") 0] doc'' (t!"name")) := by
  obtain ⟨doc, c, h1, h2, h3, h4⟩ := deepMeets_spec deepText_meets deepEdits_oneLine
  obtain ⟨doc', doc'', g1, g2, g3, g4⟩ := C40_value_edits_read_back deepText doc deepEdits h1 h2
  rw [h3] at g1
  cases g1
  rw [h4] at g2
  exact ⟨doc, c, doc'', h1, h3, h4, g2, g3, g4 [.elem (t!"user") 1] (t!"name"), g4 [.elem (t!"user") 0] (t!"name")⟩

set_option maxRecDepth 10000 in
/-- A tab behind a space: `doc = parse("a = 1 \t# c\n")`, then `doc["a"] = date(1979, 5, 27)`, writes `a = 1979-05-27 \t# c`. Reading this back gives the tab
up: the text of the document read is `a = 1979-05-27 # c`. -/
theorem C40_counterexample_space_tab :
    (parseLog (t!"a = 1 \t# c\n")).toOption.map (fun r => r.2.length) = some 0 ∧
    ((parse (t!"a = 1 \t# c\n")).toOption.bind fun c => (editAll c [⟨[], t!"a", .date ⟨1979, 5, 27⟩, .none⟩]).toOption.map dumps) = some (t!"a = 1979-05-27 \t# c\n") ∧
    (parse (t!"a = 1979-05-27 \t# c\n")).toOption.map dumps = some (t!"a = 1979-05-27 # c\n") := ⟨by decide +kernel, by decide +kernel, by decide +kernel⟩

end Tomlkit
