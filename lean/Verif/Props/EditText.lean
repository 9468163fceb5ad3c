import Verif.Proofs.Insert
import Verif.Proofs.Numbers
/-!
# C14, C15, C16, C17: what an edit does to the text
-/
namespace Tomlkit
open Spec

/-! ## C14 -/

/-- **C14.** Take any consistent document — every parsed document is one — and the value `old` found at `doc[path][k]`,
anywhere in tables, inline tables and arrays of tables. Assigning a value `v` there returns, and the text of the document
changes in one place only: after the key as it is spelled and its separator, the text of `v` stands instead of the text of
`old`; every character before and after is the same. The value read back is `v`, with the indentation, comment and line end
of the old line. -/
theorem C14_replace_touches_only_the_value (doc : Cont) (hd : Every Consistent doc) (path : List Step) (k : Str)
    (key : SKey) (old v : Item) (hf : valueAt path doc k = some (key, old)) (ho : old.isPlain = true) (hv : IsValue v)
    (hvp : v.isPlain = true) (hso : Solid old.asString) (hsn : Solid (textAt v old)) :
    ∃ doc', Cont.atPath (.set k v) path .doc doc = .ok doc' ∧
      ValueReplaced key old.asString (textAt v old) doc.asString doc'.asString ∧
      valueAt path doc' k = some (key, v.setTrivia old.trivia) := by
  have hold : old.isTableLike = false := by
    revert ho; unfold Item.isPlain Item.isTableLike
    cases old.isTable <;> cases old.isAoT <;> simp
  obtain ⟨c', h1, h2, h3⟩ := set_value_path (h := .doc) hv hold (ho.trans hvp.symm) hso hsn path ((every_iff doc).1 hd) hf
  refine ⟨c', h1, ?_, h3⟩
  rw [asString_bodyIn, asString_bodyIn]
  exact h2.body none

theorem solid_natText (n : Nat) : Solid (natText n) := by
  obtain ⟨h1, _, h3, _, _⟩ := natDigits_spec (n + 1) n (by omega)
  unfold natText
  generalize natDigits (n + 1) n = s at h1 h3
  rcases List.eq_nil_or_concat s with rfl | ⟨init, x, rfl⟩
  · exact absurd rfl h3
  · have := h1 x (by simp)
    exact ⟨init, x, by simp, by omega, by omega⟩

/-- integers, booleans, strings, arrays and inline tables have such texts -/
theorem C14_solid_texts (v : Item) (h : (∃ n, v = intItem n) ∨ (∃ b, v = .bool b {}) ∨ (∃ s, v = stringItem s) ∨
    (∃ gs t ml, v = .array gs t ml) ∨ (∃ c t n, v = .inline c t n) ∨ (∃ ty s o t, v = .str ty s o t)) (old : Item) :
    Solid v.asString ∧ Solid (textAt v old) := by
  have harr : ∀ gs t ml, Solid (Item.array gs t ml).asString := by
    intro gs t ml
    unfold Item.asString
    split
    · exact ⟨91 :: groupsStr gs, 93, rfl, by decide, by decide⟩
    · exact ⟨[91, 10] ++ (groupsMulti t.indent gs ++ t.indent), 93, by simp [List.append_assoc], by decide, by decide⟩
  have hstr : ∀ ty s o t, Solid (Item.str ty s o t).asString := by
    intro ty s o t
    rcases ty
    · exact ⟨t!"\"" ++ o, 34, rfl, by decide, by decide⟩
    · exact ⟨t!"\"\"\"" ++ o ++ t!"\"\"", 34, by simp [Item.asString, StrType.value], by decide, by decide⟩
    · exact ⟨t!"'" ++ o, 39, rfl, by decide, by decide⟩
    · exact ⟨t!"'''" ++ o ++ t!"''", 39, by simp [Item.asString, StrType.value], by decide, by decide⟩
  rcases h with ⟨n, rfl⟩ | ⟨b, rfl⟩ | ⟨s, rfl⟩ | ⟨gs, t, ml, rfl⟩ | ⟨c, t, n, rfl⟩ | ⟨ty, s, o, t, rfl⟩
  · have : Solid (intText n) := by
      unfold intText
      split
      · exact solid_append (solid_natText _) [45]
      · exact solid_natText _
    exact ⟨this, this⟩
  · refine and_self_iff.2 ?_
    cases b
    · exact ⟨t!"fals", 101, rfl, by decide, by decide⟩
    · exact ⟨t!"tru", 101, rfl, by decide, by decide⟩
  · have := hstr .slb s (escapeString s StrType.slb.escapedSequences) {}
    exact ⟨this, this⟩
  · refine ⟨harr _ _ _, ?_⟩
    unfold textAt
    dsimp only
    split
    · exact harr _ _ _
    · exact harr _ _ _
  · have : Solid (Item.inline c t n).asString := by
      obtain ⟨b, m, d, p, tk⟩ := c
      exact ⟨inlineLoop n (lastKeyIdx b) b.length 0 [123] b, 125, rfl, by decide, by decide⟩
    exact ⟨this, this⟩
  · exact ⟨hstr ty s o t, hstr ty s o t⟩

set_option maxRecDepth 10000 in
/-- a value inside an inline table of an array-of-tables element -/
example : ((parse (t!"a = 1 # one\n[[t]]\n  x = { p = \"u\", q = [1, 2] } # c\n[z]\n")).toOption.map fun c =>
    (valueAt [.elem (t!"t") 0, .key (t!"x")] c (t!"p")).isSome) = some true ∧
  ((parse (t!"a = 1 # one\n[[t]]\n  x = { p = \"u\", q = [1, 2] } # c\n[z]\n")).toOption.bind fun c =>
    (Cont.atPath (.set (t!"p") (intItem 7)) [.elem (t!"t") 0, .key (t!"x")] .doc c).toOption.map Cont.asString) =
    some (t!"a = 1 # one\n[[t]]\n  x = { p = 7, q = [1, 2] } # c\n[z]\n") := by
  decide +kernel

/-! ## C15 -/

/-- **C15.** Deleting `k` from the document, from a table or from an element of an array of tables removes from the text
exactly the rendered entries named `k` of that container, and keeps every other character: what comes before the container
and after it, its other lines, comments and blank lines, in their order. For a table the header must not depend on `k`
(`KeepsHeader`): see `C15_counterexample_header`. -/
theorem C15_delete_only_its_text_partial (doc : Cont) (hd : Every Consistent doc) (path : List Step) (y : Place)
    (hy : place path (.doc doc) = some y) (k : Str) (hk : k ∈ y.cont.dict) (hh : KeepsHeader y k) :
    ∃ doc' ctx pre post, Cont.atPath (.remove k) path .doc doc = .ok doc' ∧
      doc.asString = pre ++ y.cont.body.flatMap (renderIn ctx) ++ post ∧
      doc'.asString = pre ++ (y.cont.body.filter fun e => nameOf e != some k).flatMap (renderIn ctx) ++ post := by
  have hg := (every_iff doc).1 hd
  have hgy := place_good path (x := .doc doc) hg hy
  have hwf := ((Cont.good_iff _).1 hgy).1
  have hms : (mapGet k y.cont.map).isSome = true := (hwf.dictMem k).1 hk
  obtain ⟨is, hm⟩ := Option.isSome_iff_exists.1 hms
  have hrun : (Op.remove k).run y.holder y.cont = .ok (.mk (nullAt is y.cont.body) (mapDel k y.cont.map)
      (dictDel k y.cont.dict) y.cont.parsed y.cont.tableKeys) := by
    show y.cont.remove k = _
    unfold Cont.remove; rw [hm]
  obtain ⟨doc', hdoc'⟩ := (atPath_place path (x := .doc doc) (op := .remove k) hy).2 _ hrun
  obtain ⟨ci', h1, _, h3⟩ := around_path path (x := .doc doc) hg hdoc' hy
  have hci : ci' = _ := Except.ok.inj (h1.symm.trans hrun)
  have hkept : y.Kept ci' := by
    rcases y with c | ⟨key, tb⟩ | tb
    · trivial
    · exact headSame_remove hwf hm h1 hh
    · trivial
  obtain ⟨ctx, pre, post, h4, h5⟩ := (h3 hkept).1 none
  refine ⟨doc', ctx, pre, post, hdoc', ?_, ?_⟩
  · rw [asString_bodyIn]; exact h4
  · rw [asString_bodyIn, ← flatMap_null, ← nullAt_map hwf hm]
    rw [hci] at h5
    exact h5

/-- **C15**, for the keys of the document itself: no condition. -/
theorem C15_delete_from_document (doc : Cont) (hd : Every Consistent doc) (k : Str) (hk : k ∈ doc.dict) :
    ∃ doc', Cont.atPath (.remove k) [] .doc doc = .ok doc' ∧
      doc.asString = doc.body.flatMap (renderIn none) ∧
      doc'.asString = (doc.body.filter fun e => nameOf e != some k).flatMap (renderIn none) := by
  have hwf := ((Cont.good_iff _).1 ((every_iff doc).1 hd)).1
  obtain ⟨is, hm⟩ := Option.isSome_iff_exists.1 ((hwf.dictMem k).1 hk)
  refine ⟨.mk (nullAt is doc.body) (mapDel k doc.map) (dictDel k doc.dict) doc.parsed doc.tableKeys, ?_, ?_, ?_⟩
  · show doc.remove k = _
    unfold Cont.remove; rw [hm]
  · rw [asString_bodyIn]; rfl
  · rw [asString_bodyIn, ← flatMap_null, ← nullAt_map hwf hm]; rfl

/-- **C15**, missing keys: deleting raises `NonExistentKey`, wherever the container is (inline tables included). -/
theorem C15_missing_key (doc : Cont) (hd : Every Consistent doc) (path : List Step) (h : Holder) (c : Cont)
    (he : ends path .doc doc = some (h, c)) (k : Str) (hk : k ∉ c.dict) :
    Cont.atPath (.remove k) path .doc doc = .error .nonExistentKey := by
  have hwf := ((Cont.good_iff _).1 (ends_good path ((every_iff doc).1 hd) he)).1
  refine (atPath_ends path he).1 _ ?_
  show c.remove k = _
  unfold Cont.remove
  rcases hm : mapGet k c.map with _ | is
  · rfl
  · exact absurd ((hwf.dictMem k).2 (by rw [hm]; rfl)) hk

set_option maxRecDepth 10000 in
/-- the hypotheses of `C15_delete_only_its_text_partial` hold of a parsed document; the text after the deletion -/
example : ((parse (t!"# top\n[a] # h\n# c1\nx = 1 # cx\n# c2\ny = 2\n[b]\n")).toOption.bind fun c =>
    (place [.key (t!"a")] (.doc c)).map fun y => match y with
      | .table _ tb => (hasNl tb.trivia.trail, tb.superFlag, decide ((t!"x") ∈ tb.cont.dict))
      | _ => (false, none, false)) = some (true, some false, true) ∧
  ((parse (t!"# top\n[a] # h\n# c1\nx = 1 # cx\n# c2\ny = 2\n[b]\n")).toOption.bind fun c =>
    (Cont.atPath (.remove (t!"x")) [.key (t!"a")] .doc c).toOption.map Cont.asString) =
    some (t!"# top\n[a] # h\n# c1\n# c2\ny = 2\n[b]\n") := by
  decide +kernel

set_option maxRecDepth 10000 in
/-- **C15** is false of the code without `KeepsHeader`: in a table read from `[a.b]` to which a key was added, the header
`[a]` is written for that key only, and deleting the key deletes the header too. -/
theorem C15_counterexample_header :
    ((parse (t!"[a.b]\nz = 1\n")).toOption.bind fun c =>
      (c.history [([.key (t!"a")], .set (t!"x") (intItem 1))]).toOption.map Cont.asString) =
      some (t!"[a]\nx = 1\n[a.b]\nz = 1\n") ∧
    ((parse (t!"[a.b]\nz = 1\n")).toOption.bind fun c =>
      (c.history [([.key (t!"a")], .set (t!"x") (intItem 1)), ([.key (t!"a")], .remove (t!"x"))]).toOption.map Cont.asString) =
      some (t!"[a.b]\nz = 1\n") := by
  decide +kernel

set_option maxRecDepth 10000 in
/-- **C15** is false of the code for a table written in several places: `del doc["a"]["b"]` removes `b` from the last part
only, and `b` is still there. -/
theorem C15_counterexample_parts :
    ((parse (t!"a.b.c = 1\nx = 2\na.b.d = 3\n")).toOption.bind fun c =>
      (c.history [([.key (t!"a")], .remove (t!"b"))]).toOption.map Cont.asString) =
      some (t!"a.b.c = 1\nx = 2\n") := by
  decide +kernel

/-! ## C16 -/

/-- **C16.** In the document, a table, an inline table or an element of an array of tables: `append(k, v)` (and
`add(k, v)`) for a key that holds a value is refused with `KeyAlreadyPresent`, whatever `v` is. -/
theorem C16_duplicate_refused (doc : Cont) (hd : Every Consistent doc) (path : List Step) (h : Holder) (c : Cont)
    (he : ends path .doc doc = some (h, c)) (i : Nat) (k : Str) (old : Item) (hk : HoldsAt c i k old)
    (ho : old.isTableLike = false) (v : Item) :
    Cont.atPath (.append k v) path .doc doc = .error .keyAlreadyPresent := by
  have hwf := ((Cont.good_iff _).1 (ends_good path ((every_iff doc).1 hd) he)).1
  obtain ⟨is, hm, hi⟩ := (consistent_of_WF hwf).reachable i k old hk
  have hpl : ∀ j w, HoldsAt c j k w → w.isTableLike = false := by
    intro j w hw
    by_cases hij : i = j
    · subst hij
      obtain ⟨k1, h1, _⟩ := hk
      obtain ⟨k2, h2, _⟩ := hw
      rw [h1] at h2; cases h2; exact ho
    · have := ((consistent_of_WF hwf).parts i j k old w hk hw hij).1
      simp [Item.isTableLike, this] at ho
  obtain ⟨j, key, w, rfl, hb, _, hw⟩ := single_of_plain hwf hpl hm
  exact (atPath_ends path he).1 _ (run_append_present hm hb hw)

/-- **C16**, the other case: a value that is no table is refused for any key that is there, also for a table. -/
theorem C16_value_refused (doc : Cont) (hd : Every Consistent doc) (path : List Step) (h : Holder) (c : Cont)
    (he : ends path .doc doc = some (h, c)) (i : Nat) (k : Str) (hk : mapGet k c.map = some [i]) (v : Item)
    (hv : v.isTableLike = false) :
    Cont.atPath (.append k v) path .doc doc = .error .keyAlreadyPresent := by
  have hwf := ((Cont.good_iff _).1 (ends_good path ((every_iff doc).1 hd) he)).1
  have hk' : mapGet (mkKey k).key c.map = some [i] := by rw [mkKey_key]; exact hk
  refine (atPath_ends path he).1 _ ?_
  rcases h with _ | t | ⟨t, new⟩
  · show (Cont.append true c (some (.single (mkKey k))) v).map Prod.fst = _
    rw [append_plain_present hwf hv hk']; rfl
  · show tableAppendStr t c k v = _
    unfold tableAppendStr
    rw [append_plain_present hwf hv hk']
  · show inlineAppend new c (some (mkKey k)) v = _
    unfold inlineAppend
    dsimp only
    rw [Option.map_some, append_plain_present hwf ?_ hk']
    · rfl
    · split
      · exact hv
      · split <;> simp [isTableLike_setTrivia, hv]

set_option maxRecDepth 10000 in
example : ((parse (t!"[a]\nx = {p = 1}\n")).toOption.map fun c =>
    (ends [.key (t!"a"), .key (t!"x")] .doc c).isSome) = some true ∧
  ((parse (t!"[a]\nx = {p = 1}\n")).toOption.map fun c =>
    match Cont.atPath (.append (t!"p") (intItem 2)) [.key (t!"a"), .key (t!"x")] .doc c with
    | .error .keyAlreadyPresent => true | _ => false) = some true := by
  decide +kernel

/-! ## C17 -/

theorem parse_stop {s : Str} {doc : Cont} (hp : parse s = .ok doc) : ∃ c : Cont, doc = c.stopParsing := by
  unfold parse parseLog at hp
  rcases hx : parseDoc s (.init s) with ⟨c, st⟩ | ⟨e, st⟩
  · rw [hx] at hp
    have : doc = c := by
      simp only [Except.map] at hp
      exact (Except.ok.inj hp).symm
    subst this
    unfold parseDoc at hx
    obtain ⟨c1, s1, h1, h2⟩ := P.bind_ok.1 hx
    obtain ⟨c2, s2, h3, h4⟩ := P.bind_ok.1 h2
    refine ⟨c2, ?_⟩
    rw [P.pure_def] at h4
    injection h4 with h5
    exact h5.symm
  · rw [hx] at hp; cases hp

/-- **C17.** Take any document read by `parse` and the document itself, a table or an element of an array of tables in it.
Assigning or appending a value under a new key returns, and the new entry stands in its container after a part `b1` that
holds no table header at all: it is written before the first table. The other entries keep their order, and only the one
before the new key may be changed, to get the line end it lacks. -/
theorem C17_new_key_before_tables (s : Str) (doc : Cont) (hp : parse s = .ok doc) (path : List Step) (y : Place)
    (hy : place path (.doc doc) = some y) (k : Str) (hk : k ∉ y.cont.dict) (v : Item) (hv : v.isTableLike = false) (op : Op)
    (hop : op = .set k v ∨ op = .append k v) :
    ∃ doc' y' b1 b1' b2 ind, Cont.atPath op path .doc doc = .ok doc' ∧ ends path .doc doc' = some (y.holder, y') ∧
      y.cont.body = b1 ++ b2 ∧
      y'.body = b1' ++ .mk (some (mkKey k)) (v.setTrivia { v.trivia with indent := ind }) :: b2 ∧
      ClosesLine b1 b1' ∧ ∀ e ∈ b1, opensTable e = false := by
  have hg := (parse_all s).1 doc hp
  have hgy := place_good path (x := .doc doc) hg hy
  have hwf := ((Cont.good_iff _).1 hgy).1
  have hstop : ∃ c : Cont, doc = c.stopParsing := by
    exact parse_stop hp
  obtain ⟨c0, hc0⟩ := place_stopParsing path (x := .doc doc) hstop hy
  have hpar : y.cont.parsed = false := by rw [hc0]; exact (stopParsing_fields c0).2.2
  have hm : mapGet k y.cont.map = none := by
    rcases hm : mapGet k y.cont.map with _ | is
    · rfl
    · exact absurd ((hwf.dictMem k).2 (by rw [hm]; rfl)) hk
  have hh : y.holder = .doc ∨ ∃ t, y.holder = .table t := by
    rcases y with c | ⟨key, tb⟩ | tb
    · exact Or.inl rfl
    · exact Or.inr ⟨_, rfl⟩
    · exact Or.inr ⟨_, rfl⟩
  obtain ⟨c', b1, b1', b2, ind, h1, h2, h3, h4, h5, h6, h7⟩ := run_new hh hpar hv hm hop
  obtain ⟨doc', h8, h9⟩ := (atPath_ends path (place_ends path (x := .doc doc) hy)).2 c' h1
  exact ⟨doc', c', b1, b1', b2, ind, h8, h9, h2, h3, h4, h5⟩

set_option maxRecDepth 10000 in
/-- a table with a comment, a blank line and sub-tables -/
example : ((parse (t!"[a]\nx = 1\n\n[a.b]\n[[a.c]]\n")).toOption.bind fun c =>
    (Cont.atPath (.set (t!"n") (intItem 7)) [.key (t!"a")] .doc c).toOption.map Cont.asString) =
    some (t!"[a]\nx = 1\nn = 7\n\n[a.b]\n[[a.c]]\n") := by
  decide +kernel

set_option maxRecDepth 10000 in
/-- What `ClosesLine` does not give: a document that ends without a line break inside a dotted key, or in the header of an
array-of-tables element, gets the new key on the same line, and the text can no longer be read. -/
theorem C17_counterexample_line :
    ((parse (t!"a.b = 1")).toOption.bind fun c =>
      (Cont.atPath (.set (t!"c") (intItem 2)) [] .doc c).toOption.map Cont.asString) = some (t!"a.b = 1c = 2\n") ∧
    ((parse (t!"[[a]]")).toOption.bind fun c =>
      (Cont.atPath (.set (t!"c") (intItem 2)) [.elem (t!"a") 0] .doc c).toOption.map Cont.asString) =
      some (t!"[[a]]c = 2\n") ∧
    (parse (t!"a.b = 1c = 2\n")).toOption.isNone = true ∧ (parse (t!"[[a]]c = 2\n")).toOption.isNone = true := by
  decide +kernel

set_option maxRecDepth 10000 in
/-- The hypothesis that the container has been read by `parse` (or made by `document()` or `table()`) is needed: the
table made by `doc.append(key("a.b"), 1)` stays in parsing mode, and a later value is written below a sub-table. -/
theorem C17_counterexample_dotted :
    ((Cont.empty false).history [([], .appendKey (.dotted [mkKey (t!"a"), mkKey (t!"b")] (t!" = ") (t!"a.b")) (intItem 1)),
      ([.key (t!"a")], .set (t!"t") (.table (.mk (.empty false) {} false none none none))),
      ([.key (t!"a")], .set (t!"c") (intItem 2))]).toOption.map Cont.asString = some (t!"a.b = 1\n[a.t]\na.c = 2\n") := by
  decide +kernel

end Tomlkit
