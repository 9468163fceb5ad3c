import Verif.Proofs.InlineNear
/-!
# C43: edits inside the inline tables of a document that was read
-/
namespace Tomlkit
open _root_.Spec Tomlkit.Spec

/-- what may have become of the value of a line -/
def LineNow (o w : Item) : Prop := LineUpd o w ∧ Neat w

theorem LineNow.trivia {o w : Item} (h : LineNow o w) : w.trivia = o.trivia := by
  rcases h.1 with rfl | h
  · rfl
  · exact h.1

theorem evenWs_of {b : Str} (h : EvenSpace b) : EvenWs b := by
  refine ⟨fun c hc => ?_, h.2⟩
  rcases h.1 c hc with rfl | rfl <;> rfl

/-- the change starts from nothing -/
def Anew (l : List LineChange) : Prop := ∃ w p r, l = .assign w p :: r

/-- one edit -/
theorem line_step {o : Cont} (hg : o.Good Cont.WF) {c : Cont} (hn : o.Near LineNow c) {e : LineEdit} (hf : e.Fit c) :
    ∃ c1 key old new, e.run c = .ok c1 ∧ o.Near LineNow c1 ∧ lineAt e.path c e.key = some (key, old) ∧ lineAt e.path c1 e.key = some (key, new) ∧
      (∀ p k, ¬(p = e.path ∧ k = e.key) → lineAt p c1 k = lineAt p c k) ∧
      ∀ w0, (Rep w0 old ∨ Anew [e.change]) → ∃ w1, LineChange.on w0 e.change = .ok w1 ∧ Rep w1 new := by
  rcases e with ⟨path, k, ⟨w, p⟩ | ⟨ks, d⟩⟩
  · obtain ⟨ho, key, old, hl, hw⟩ := hf
    simp only at hl hw
    obtain ⟨v, h1, hm⟩ := oneLine_made ho
    obtain ⟨v', h1', hneat, hrep, _⟩ := made_in ho
    rw [h1] at h1'
    cases h1'
    have hnt := oneLine_noTable ho h1
    obtain ⟨w2, hfr⟩ := item_lit (q := True) w ho.1 ho.2.1 false p v h1 hnt
    have hre : Rereads True v := hfr.lit.rereads
    have hvs : v.isSimple = true := by
      obtain ⟨g1, g2, g3, g4, _⟩ := hre
      cases v <;> first | rfl | (cases g1; done) | (cases g2; done) | (cases g3; done) | (cases g4; done)
    have hv : IsValue v := ⟨hre.1, hre.2.1, hre.2.2.2.1, hm.noComment, hm.noWs⟩
    have htr : (v.setTrivia old.trivia).trivia = old.trivia := setTrivia_trivia hre.2.1 _
    obtain ⟨c1, k1, k2, k3, k4⟩ := near_set (U := LineNow) hv hvs (old := old) (key := key) (by
      intro o0 hu
      have h0 := hu.trivia
      exact ⟨.inr ⟨by rw [htr]; exact h0, isSimple_setTrivia hvs _, hre.setTrivia _, by rw [← h0]; exact evenWs_of hw⟩, hneat.setTrivia _⟩) path (h := .doc) hg hn hl
    refine ⟨c1, key, old, _, ?_, k2, hl, k3, k4, fun w0 _ => ⟨w, rfl, hrep.setTrivia _⟩⟩
    show ValueEdit.run c ⟨path, k, w, p⟩ = _
    unfold ValueEdit.run
    rw [h1]
    exact k1
  · obtain ⟨key, ci, t, hl, hw, hd⟩ := hf
    simp only at hl
    have hne : Neat (.inline ci t false) := by
      rcases near_line path (k := k) hn with ⟨_, g⟩ | ⟨_, _, _, _, g2, g3⟩
      · rw [hl] at g; cases g
      · rw [hl] at g2
        cases g2
        exact g3.2
    obtain ⟨op, c', g1, g2, g3, g4, g5⟩ := inside_ok d ks ci t hd hne
    obtain ⟨c1, k1, k2, k3, k4⟩ := near_inside (U := LineNow) (op := op) (k := k) (ks := ks.map .key) (new := .inline c' t false) rfl (key := key) (old := .inline ci t false) (by
      intro h c i sk hm hb
      unfold Cont.atPath
      rw [hm]
      dsimp only
      rw [hb]
      dsimp only
      rw [g2]
      rfl) (by
      intro o0 hu
      have h0 : t = o0.trivia := hu.trivia
      exact ⟨.inr ⟨h0, rfl, g3.rereads t, by rw [← h0]; exact evenWs_of hw⟩, g4⟩) path (h := .doc) hg hn hl
    refine ⟨c1, key, _, _, ?_, k2, hl, k3, k4, fun w0 hw0 => ?_⟩
    · show (match d.op with | .error x => _ | .ok op => _ : Except Err Cont) = _
      rw [g1]
      exact k1
    · rcases hw0 with hw0 | ⟨_, _, _, h⟩
      · exact g5 w0 hw0
      · cases h

theorem changesAt_here (e : LineEdit) (r : List LineEdit) : changesAt (e :: r) e.path e.key = e.change :: changesAt r e.path e.key := by
  unfold changesAt
  rw [List.filter_cons_of_pos (by simp)]
  rfl

theorem changesAt_else (e : LineEdit) (r : List LineEdit) {p : List Step} {k : Str} (h : ¬(p = e.path ∧ k = e.key)) : changesAt (e :: r) p k = changesAt r p k := by
  unfold changesAt
  rw [List.filter_cons_of_neg (by simp only [decide_eq_true_eq]; exact fun h0 => h ⟨h0.1.symm, h0.2.symm⟩)]

/-- what holds of the document after some edits -/
theorem lines_near {o : Cont} (hg : o.Good Cont.WF) : ∀ (es : List LineEdit) (c : Cont), o.Near LineNow c → LinesFit c es →
    ∃ c', editLines c es = .ok c' ∧ o.Near LineNow c' ∧ ∀ p k, (changesAt es p k = [] → lineAt p c' k = lineAt p c k) ∧
      (changesAt es p k ≠ [] → ∃ key v v', lineAt p c k = some (key, v) ∧ lineAt p c' k = some (key, v') ∧
        ∀ w0, (Rep w0 v ∨ Anew (changesAt es p k)) → ∃ w1, foldE LineChange.on w0 (changesAt es p k) = .ok w1 ∧ Rep w1 v')
  | [], c, hn, _ => ⟨c, rfl, hn, fun _ _ => ⟨fun _ => rfl, fun h => absurd rfl h⟩⟩
  | e :: r, c, hn, hf => by
    obtain ⟨hf, hr⟩ := hf
    obtain ⟨c1, key, old, new, h1, h2, h3, h4, h5, h6⟩ := line_step hg hn hf
    obtain ⟨c', g1, g2, g3⟩ := lines_near hg r c1 h2 (hr c1 h1)
    refine ⟨c', ?_, g2, fun p k => ?_⟩
    · show foldE LineEdit.run c (e :: r) = _
      rw [foldE, h1]
      exact g1
    · by_cases hpk : p = e.path ∧ k = e.key
      · obtain ⟨rfl, rfl⟩ := hpk
        rw [changesAt_here]
        refine ⟨fun h => (by cases h), fun _ => ?_⟩
        obtain ⟨q1, q2⟩ := g3 e.path e.key
        have hstep : ∀ w0, (Rep w0 old ∨ Anew (e.change :: changesAt r e.path e.key)) → ∃ w1, LineChange.on w0 e.change = .ok w1 ∧ Rep w1 new := by
          intro w0 hw0
          refine h6 w0 ?_
          rcases hw0 with h | ⟨w, p, r', h⟩
          · exact .inl h
          · rw [(List.cons.inj h).1]
            exact .inr ⟨w, p, [], rfl⟩
        by_cases hc : changesAt r e.path e.key = []
        · refine ⟨key, old, new, h3, (q1 hc).trans h4, fun w0 hw0 => ?_⟩
          obtain ⟨w1, t1, t2⟩ := hstep w0 hw0
          refine ⟨w1, ?_, t2⟩
          rw [hc, foldE, t1]
          rfl
        · obtain ⟨key', v, v', u1, u2, u3⟩ := q2 hc
          rw [h4] at u1
          cases u1
          refine ⟨key, old, v', h3, u2, fun w0 hw0 => ?_⟩
          obtain ⟨w1, t1, t2⟩ := hstep w0 hw0
          obtain ⟨w2, t3, t4⟩ := u3 w1 (.inl t2)
          refine ⟨w2, ?_, t4⟩
          rw [foldE, t1]
          exact t3
      · rw [changesAt_else e r hpk]
        have := g3 p k
        rw [h5 p k hpk] at this
        exact this

/-- **C43.** A text is read. Then values are replaced anywhere in the document, as in C40, and the inline tables in it are edited: `doc["a"]["t"]["k"] = w`,
`doc["a"]["t"].add("k", w)`, `del doc["a"]["t"]["k"]`, also in inline tables inside inline tables; all this any number of times, in any order.
All these edits succeed. The text that is then written is read again, nothing given up (C01), and the two documents hold the same data. At
each place where something was changed, the value that is read is what the same changes make of the Python data that was there before; the key and the comment
stay. Every other value is there as it was in the first text.

The inline tables that are edited come from the text and have no dotted keys, and their values are no dates or times (`C43_counterexample_date`);
the values put into them stay on the line and are no dates or times. -/
theorem C43_inline_edits_read_back (s : Str) (doc : Cont) (es : List LineEdit) (h : parseLog s = .ok (doc, [])) (hf : LinesFit doc es) :
    ∃ doc' doc'', editLines doc es = .ok doc' ∧ parseLog (dumps doc') = .ok (doc'', []) ∧ SameData doc' doc'' ∧
      ∀ path k, (changesAt es path k = [] → SameLine (lineAt path doc k) (lineAt path doc'' k)) ∧
        (changesAt es path k ≠ [] → ∃ key v v'', lineAt path doc k = some (key, v) ∧ lineAt path doc'' k = some (key, v'') ∧
          v''.trivia.comment = v.trivia.comment ∧
          ∀ w0, ((∃ n, v.unwrap n = .ok w0) ∨ ∃ w p r, changesAt es path k = .assign w p :: r) →
            ∃ w1, foldE LineChange.on w0 (changesAt es path k) = .ok w1 ∧ Holding v'' w1) := by
  have hg : doc.Good Cont.WF := (parse_all s).1 doc (by unfold parse; rw [h]; rfl)
  have hneat := doc_neat h
  obtain ⟨c, rfl, hcl, _, hlock⟩ := doc_lock line_hyp (fun v => .inl rfl) h
  have hself : c.stopParsing.Near LineNow c.stopParsing := near_self_of hcl fun v hv => ⟨.inl rfl, hneat v hv⟩
  obtain ⟨doc', h1, h2', h3⟩ := lines_near hg es _ hself hf
  have h2 : c.stopParsing.Near LineUpd doc' := Cont.Near.imp _ _ h2' fun _ _ h => h.1
  have hlv := Cont.Near.leaves _ _ h2
  rw [Cont.stop_leaves] at hlv
  obtain ⟨s', c', us, hfit, htw, hlog⟩ := hlock _ hlv
  have hskel : c'.stopParsing.skel = c.stopParsing.skel := by rw [Cont.stop_skel, Cont.stop_skel, htw.skel]
  have hnear : doc'.Near LineBack c'.stopParsing := by
    refine (Cont.near_of _ _ _ h2 hskel (r2 := []) (r3 := []) ?_).1
    rw [List.append_nil, List.append_nil, Cont.stop_leaves, htw.right]
    exact hfit.2
  have htext : dumps doc' = s' := by
    have := (Cont.near_text _ _ hnear).1
    rw [← parse_dumps hlog]
    exact this.symm
  refine ⟨doc', _, h1, by rw [htext]; exact hlog, near_data (Cont.Near.imp _ _ hnear fun a b hab => hab.data), fun path k => ⟨fun hc => ?_, fun hc => ?_⟩⟩
  · rw [← (h3 path k).1 hc]
    rcases near_line path (k := k) hnear with ⟨g1, g2⟩ | ⟨key, v, v', g1, g2, g3⟩
    · rw [g1, g2]; trivial
    · rw [g1, g2]; exact g3.same key
  · obtain ⟨key, v, v', g1, g2, g3⟩ := (h3 path k).2 hc
    rcases near_line path (k := k) hnear with ⟨k1, _⟩ | ⟨key', v1, v'', k1, k2, k3⟩
    · rw [g2] at k1; cases k1
    rw [g2] at k1
    cases k1
    have hcm : v'.trivia = v.trivia := by
      rcases near_line path (k := k) h2' with ⟨_, q⟩ | ⟨_, _, _, q1, q2, q3⟩
      · rw [g2] at q; cases q
      · rw [g1] at q1
        rw [g2] at q2
        cases q1
        cases q2
        exact q3.trivia
    refine ⟨key, v, v'', g1, k2, by rw [k3.comment, hcm], fun w0 hw0 => ?_⟩
    have hvn : Neat v := by
      rcases near_line path (k := k) hself with ⟨_, q⟩ | ⟨_, _, _, _, q2, q3⟩
      · rw [g1] at q; cases q
      · rw [g1] at q2
        cases q2
        exact q3.2
    obtain ⟨w1, t1, t2⟩ := g3 w0 (hw0.imp (fun h => hvn.rep h) id)
    obtain ⟨w', ⟨n0, hw⟩, hs⟩ := t2.worth
    exact ⟨w1, t1, w', ((k3.same key).2.2.2 w').1 ⟨n0, hw n0 (Nat.le_refl _)⟩, hs⟩

/-! ### an example -/

/-- an inline table with another one in it, one without keys, one in an array of tables -/
def inlText : Str := t!"[tool]\ndep = {version = \"1\", opts = { a = 1,b=2 }, tags = ['x', 1979-05-27]} # d\nempty = {}\n[[e]]\np = { q = 1 }"

/-- keys replaced, removed and added, at both levels; an inline table is emptied, then replaced -/
def inlEdits : List LineEdit := [⟨[.key (t!"tool")], t!"dep", .inside [] (.set (t!"version") (.str (t!"2")))⟩,
  ⟨[.key (t!"tool")], t!"dep", .inside [t!"opts"] (.remove (t!"b"))⟩,
  ⟨[.key (t!"tool")], t!"dep", .inside [t!"opts"] (.set (t!"c d") (.list [.int 3]))⟩,
  ⟨[.key (t!"tool")], t!"dep", .inside [] (.add (t!"new") (.bool true))⟩,
  ⟨[.key (t!"tool")], t!"dep", .inside [] (.remove (t!"tags"))⟩,
  ⟨[.key (t!"tool")], t!"empty", .inside [] (.add (t!"n") (.int 1))⟩,
  ⟨[.elem (t!"e") 0], t!"p", .inside [] (.remove (t!"q"))⟩,
  ⟨[.elem (t!"e") 0], t!"p", .assign (.int 5) .none⟩]

/-- the text after these edits -/
def inlOutcome : Str := t!"[tool]\ndep = {version = \"2\", opts = { a = 1, \"c d\" = [3]},  new = true} # d\nempty = {n = 1}\n[[e]]\np = 5"

/-- no dotted keys, no dates -/
def plainCheck (c : Cont) : Bool := c.parsed && c.body.all fun e => e.key.isNone || (isLineValue e.v && !e.v.isDated)

theorem plainCheck_spec {c : Cont} (h : plainCheck c = true) : PlainInline c := by
  unfold plainCheck at h
  simp only [Bool.and_eq_true, List.all_eq_true, Bool.or_eq_true, Bool.not_eq_true'] at h
  refine ⟨h.1, fun e he key hk => ?_⟩
  rcases h.2 e he with h1 | ⟨h1, h2⟩
  · rw [hk] at h1; cases h1
  · refine ⟨h1, ?_⟩
    generalize e.v = v at h2
    cases v <;> first | trivial | cases h2

/-- what is added is new, what is removed is there -/
def dictCheck (c : Cont) : DictEdit → Bool
  | .set .. => true
  | .add k _ => !c.dict.contains k
  | .remove k => c.dict.contains k

/-- the part of the conditions on an edit that is checked by running -/
def dictMeets (e : DictEdit) : List Str → Cont → Bool
  | [], c => plainCheck c && dictCheck c e
  | k :: r, c => plainCheck c && (match c.item k with
    | .ok (.inl (.inline ci _ false)) => dictMeets e r ci
    | _ => false)

/-- the value is one that may be put into an inline table -/
def dictWorthy : DictEdit → Prop
  | .set _ w | .add _ w => OneLine w .inline ∧ isDay w = false
  | .remove _ => True

theorem dictMeets_spec (e : DictEdit) (hw : dictWorthy e) : ∀ (ks : List Str) (c : Cont), dictMeets e ks c = true → DictEdit.Fit e ks c
  | [], c, h => by
    rw [dictMeets, Bool.and_eq_true] at h
    refine ⟨plainCheck_spec h.1, ?_⟩
    have h2 := h.2
    rcases e with _ | _ | _
    · exact hw
    · exact ⟨by simpa [dictCheck] using h2, hw⟩
    · show _ ∈ _
      simpa [dictCheck] using h2
  | k :: r, c, h => by
    rw [dictMeets, Bool.and_eq_true] at h
    refine ⟨plainCheck_spec h.1, ?_⟩
    have h2 := h.2
    split at h2
    · rename_i ci t hi
      exact ⟨ci, t, hi, dictMeets_spec e hw r ci h2⟩
    · cases h2

/-- the part of the conditions that is checked by running the edits -/
def linesMeet : Cont → List LineEdit → Bool
  | _, [] => true
  | c, e :: r => (match lineAt e.path c e.key with
      | some (_, old) => old.trivia.commentWs.all (fun x => x == 32) && (match e.change, old with
        | .assign .., _ => true
        | .inside ks d, .inline ci _ false => dictMeets d ks ci
        | _, _ => false)
      | none => false) && (match e.run c with
      | .ok c' => linesMeet c' r
      | .error _ => true)

/-- the values are on one line -/
def lineWorthy (e : LineEdit) : Prop :=
  match e.change with
  | .assign w p => OneLine w p
  | .inside _ d => dictWorthy d

theorem linesMeet_spec : ∀ (es : List LineEdit) (c : Cont), linesMeet c es = true → (∀ e ∈ es, lineWorthy e) → LinesFit c es
  | [], _, _, _ => trivial
  | e :: r, c, h, ho => by
    rw [linesMeet, Bool.and_eq_true] at h
    refine ⟨?_, fun c' hc => ?_⟩
    · have h1 := h.1
      have hw := ho e (by simp)
      rcases hl : lineAt e.path c e.key with _ | ⟨key, old⟩ <;> rw [hl] at h1
      · cases h1
      · simp only [Bool.and_eq_true, List.all_eq_true, beq_iff_eq] at h1
        obtain ⟨h1, h2⟩ := h1
        have hev : EvenSpace old.trivia.commentWs := ⟨fun c hc => .inl (h1 c hc), .inl h1⟩
        rcases e with ⟨path, k, ⟨w, p⟩ | ⟨ks, d⟩⟩
        · exact ⟨hw, key, old, hl, hev⟩
        · rcases old with _ | _ | _ | _ | _ | _ | _ | _ | _ | _ | ⟨ci, t, _ | _⟩ | _ | _ | _ <;> first | (cases h2; done) | skip
          exact ⟨key, ci, t, hl, hev, dictMeets_spec d hw ks ci h2⟩
    · have h2 := h.2
      rw [hc] at h2
      exact linesMeet_spec r c' h2 fun e' he' => ho e' (by simp [he'])

theorem inlEdits_worthy : ∀ e ∈ inlEdits, lineWorthy e := by
  simp [inlEdits, lineWorthy, dictWorthy, isDay, OneLine, KeysOnce, KeysOnceAll, Writable, Throughout, ThroughoutAll, Proper, PyVal.isDict]

/-- what is checked by running the model -/
def inlMeets (r : Except Err (Cont × List Loss)) (es : List LineEdit) (out : Str) : Bool :=
  match r with
  | .error _ => false
  | .ok (doc, l) => l.isEmpty && linesMeet doc es && (match editLines doc es with
    | .ok c => decide (dumps c = out)
    | .error _ => false)

theorem inlMeets_spec {s out : Str} {es : List LineEdit} (h : inlMeets (parseLog s) es out = true) (ho : ∀ e ∈ es, lineWorthy e) :
    ∃ doc c, parseLog s = .ok (doc, []) ∧ LinesFit doc es ∧ editLines doc es = .ok c ∧ dumps c = out := by
  unfold inlMeets at h
  rcases hp : parseLog s with e | ⟨doc, l⟩ <;> rw [hp] at h
  · cases h
  simp only [Bool.and_eq_true] at h
  obtain ⟨⟨h1, h2⟩, h3⟩ := h
  rcases hc : editLines doc es with e | c <;> rw [hc] at h3
  · cases h3
  · exact ⟨doc, c, by rw [List.isEmpty_iff.1 h1], linesMeet_spec es doc h2 ho, hc, of_decide_eq_true h3⟩

set_option maxRecDepth 10000 in
theorem inlText_meets : inlMeets (parseLog inlText) inlEdits inlOutcome = true := by decide +kernel

/-- the theorem applies to this text and these edits -/
example : ∃ doc doc' doc'', parseLog inlText = .ok (doc, []) ∧ editLines doc inlEdits = .ok doc' ∧ dumps doc' = inlOutcome ∧ parseLog inlOutcome = .ok (doc'', []) ∧
    SameData doc' doc'' ∧ ∃ key v v'', lineAt [.key (t!"tool")] doc (t!"dep") = some (key, v) ∧ lineAt [.key (t!"tool")] doc'' (t!"dep") = some (key, v'') ∧
      ∀ w0, (∃ n, v.unwrap n = .ok w0) → ∃ w1, foldE LineChange.on w0 (changesAt inlEdits [.key (t!"tool")] (t!"dep")) = .ok w1 ∧ Holding v'' w1 := by
  obtain ⟨doc, c, h1, h2, h3, h4⟩ := inlMeets_spec inlText_meets inlEdits_worthy
  obtain ⟨doc', doc'', g1, g2, g3, g4⟩ := C43_inline_edits_read_back inlText doc inlEdits h1 h2
  rw [h3] at g1
  cases g1
  rw [h4] at g2
  obtain ⟨key, v, v'', k1, k2, _, k3⟩ := (g4 [.key (t!"tool")] (t!"dep")).2 (by decide +kernel)
  exact ⟨doc, c, doc'', h1, h3, h4, g2, g3, key, v, v'', k1, k2, fun w0 hw => k3 w0 (.inl hw)⟩

/-- what the changes to `dep` make of the data -/
example : foldE LineChange.on (.dict [.mk (t!"version") (.str (t!"1")), .mk (t!"opts") (.dict [.mk (t!"a") (.int 1), .mk (t!"b") (.int 2)]), .mk (t!"tags") (.list [])])
    (changesAt inlEdits [.key (t!"tool")] (t!"dep")) =
    .ok (.dict [.mk (t!"version") (.str (t!"2")), .mk (t!"opts") (.dict [.mk (t!"a") (.int 1), .mk (t!"c d") (.list [.int 3])]), .mk (t!"new") (.bool true)]) := rfl

set_option maxRecDepth 10000 in
/-- A date: `doc = parse("t = {d = 1979-05-27, b = 2}")`, then `del doc["t"]["b"]`, writes `t = {d = 1979-05-27 }`. Reading this back gives the space up:
the text of the document read is `t = {d = 1979-05-27}`. -/
theorem C43_counterexample_date :
    (parseLog (t!"t = {d = 1979-05-27, b = 2}")).toOption.map (fun r => r.2.length) = some 0 ∧
    ((parse (t!"t = {d = 1979-05-27, b = 2}")).toOption.bind fun c => (editLines c [⟨[], t!"t", .inside [] (.remove (t!"b"))⟩]).toOption.map dumps) = some (t!"t = {d = 1979-05-27 }") ∧
    (parse (t!"t = {d = 1979-05-27 }")).toOption.map dumps = some (t!"t = {d = 1979-05-27}") := ⟨by decide +kernel, by decide +kernel, by decide +kernel⟩

end Tomlkit
