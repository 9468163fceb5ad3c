import Verif.Proofs.InlineOk
import Verif.Proofs.AboveData
import Verif.Spec.InlineEdit
/-!
# Edits of inline tables
-/
namespace Tomlkit
open _root_.Spec Tomlkit.Spec

/-- `c'` is `c` with `k` holding `v`, or with `k` removed -/
structure Slot (c : Cont) (k : Str) (v : Option Item) (c' : Cont) : Prop where
  ok : InlineOk c'
  keys : ∀ k', k' ≠ k → (k' ∈ c'.dict ↔ k' ∈ c.dict)
  items : ∀ k', k' ≠ k → k' ∈ c.dict → c'.item k' = c.item k'
  at_ : ∀ w, v = some w → k ∈ c'.dict ∧ c'.item k = .ok (.inl w)
  gone : v = none → k ∉ c'.dict

/-- an item that may be put into an inline table -/
structure InVal (v : Item) : Prop where
  reads : Rereads True v
  indent : v.trivia.indent = []
  comment : v.trivia.comment = []
  cws : v.trivia.commentWs = []
  trail : dropNl v.trivia.trail = []
  day : v.isDated = false

theorem isDated_self {v : Item} (t : Trivia) : (v.setTrivia t).isDated = v.isDated := by cases v <;> rfl

theorem item_of {c : Cont} {k : Str} {i : Nat} {key : Option SKey} {v : Item} (hm : mapGet k c.map = some [i]) (hb : c.body[i]? = some (.mk key v)) :
    c.item k = .ok (.inl v) := item_single.2 ⟨i, _, hm, hb, rfl⟩

/-- the value at a position is changed -/
theorem InlineOk.change {c : Cont} (h : InlineOk c) {k : Str} {i : Nat} {key : SKey} {old v : Item} (hm : mapGet k c.map = some [i])
    (hb : c.body[i]? = some (.mk (some key) old)) (hk : key.key = k) {m : List (Str × List Nat)} (hmm : ∀ k', mapGet k' m = mapGet k' c.map)
    (hw : (Cont.mk (c.body.set i (.mk (some key) v)) m c.dict c.parsed c.tableKeys).WF) (he : IEnt (.mk (some key) v)) :
    Slot c k (some v) (.mk (c.body.set i (.mk (some key) v)) m c.dict c.parsed c.tableKeys) := by
  have hlt := (List.getElem?_eq_some_iff.1 hb).1
  obtain ⟨a, b, h1, h2, _⟩ := set_split hb (.mk (some key) v)
  refine ⟨⟨h.parsed, hw, ?_, fun e hx => ?_⟩, fun _ _ => Iff.rfl, fun k' hk' hd => ?_, fun w hw => ?_, fun h0 => by cases h0⟩
  · rw [Cont.dict_mk, h.keys, Cont.body_mk, h2, h1]
    have e1 : ∀ x : Entry, a ++ x :: b = a ++ ([x] ++ b) := fun x => by simp
    rw [e1, e1]
    simp only [keysOf_append, keysOf_single, Entry.key_mk]
  · rcases List.mem_or_eq_of_mem_set hx with hx | rfl
    · exact h.ents e hx
    · exact he
  · obtain ⟨n, key', v', g1, g2, g3, g4⟩ := h.at hd
    rw [g4]
    refine item_of (i := n) (key := some key') (by rw [Cont.map_mk, hmm]; exact g1) ?_
    rw [Cont.body_mk, List.getElem?_set_ne, g2]
    rintro rfl
    rw [hb] at g2
    cases g2
    exact hk' (g3.symm.trans hk)
  · cases hw
    refine ⟨(h.wf.dictMem k).2 (by rw [hm]; rfl), item_of (i := i) (key := some key) (by rw [Cont.map_mk, hmm]; exact hm) ?_⟩
    rw [Cont.body_mk, List.getElem?_set, if_pos rfl, if_pos hlt]

/-- `t[k] = v` for a key of the table -/
theorem InlineOk.set {c : Cont} (h : InlineOk c) {t : Trivia} {new : Bool} {k : Str} (hk : k ∈ c.dict) {v : Item} (hv : InVal v) :
    ∃ t' c', Op.run (.inline t new) c (.set k v) = .ok c' ∧ Slot c k (some (v.setTrivia t')) c' := by
  obtain ⟨i, key, old, hm, hb, hkk, hi⟩ := h.at hk
  have hold := (h.ents _ (List.mem_of_getElem? hb)).plain
  have hval : IsValue v := ⟨hv.reads.1, hv.reads.2.1, hv.reads.2.2.2.1, hv.comment, hv.cws⟩
  have hrun := run_set_value (h := .inline t new) hm hb hkk hold hval
  have hdoc : c.setItem k v = .ok _ := run_set_value (h := .doc) hm hb hkk hold hval
  refine ⟨old.trivia, _, hrun, h.change hm hb hkk ?_ (h.wf.setItem hdoc) ?_⟩
  · intro k'
    rw [mapGet_mapSet, mapGet_mapDel]
    by_cases hkk' : k = k'
    · subst hkk'; rw [if_pos rfl, hm]
    · rw [if_neg hkk', if_neg hkk']
  · have := h.ents _ (List.mem_of_getElem? hb)
    cases this with
    | kv h1 h2 h3 h4 h5 h6 =>
      have ht := setTrivia_trivia hv.reads.2.1 old.trivia
      exact .kv h1 (hv.reads.setTrivia _) (by rw [ht]; exact h3) (by rw [ht]; exact h4) (by rw [ht]; exact h5) (by rw [isDated_self]; exact hv.day)

theorem spaces_spaceRun {s r : Str} (h : spaceRun s = some r) : Spaces r := by
  unfold spaceRun at h
  dsimp only at h
  split at h
  · cases h
  · cases h
    intro c hc
    have : (c == 32) = true := takeWhile_mem (q := (· == 32)) c hc
    simp only [beq_iff_eq] at this
    subst this; rfl

/-- a new key at the end -/
theorem InlineOk.snoc {c : Cont} (h : InlineOk c) {k : Str} (hk : k ∉ c.dict) {v : Item} (he : IEnt (.mk (some (mkKey k)) v)) :
    ∃ c', Cont.append true c (some (.single (mkKey k))) v = .ok (c', false) ∧ mapGet k c.map = none ∧ Slot c k (some v) c' ∧ c'.body = c.body ++ [.mk (some (mkKey k)) v] ∧
      mapGet k c'.map = some [c.body.length] := by
  have hm : mapGet k c.map = none := by
    rcases hm : mapGet k c.map with _ | is
    · rfl
    · exact absurd ((h.wf.dictMem k).2 (by rw [hm]; rfl)) hk
  have hm' : mapGet (mkKey k).key c.map = none := by rw [mkKey_key]; exact hm
  have hvt : v.isTableLike = false := he.plain
  have ht : c.appendTail (some (mkKey k)) v = .ok (.mk (c.body ++ [.mk (some (mkKey k)) v]) (mapSet (mkKey k).key [c.body.length] c.map)
      (dictSet (mkKey k).key c.dict) c.parsed c.tableKeys) := by
    unfold Cont.appendTail
    simp only [h.parsed, Bool.not_true, Bool.and_false, Bool.false_and, Bool.false_eq_true, if_false]
    rw [rawAppend_new_eq hvt hm', h.parsed]
  have ha := append_plain_new (validate := true) hvt hm'
  rw [ht] at ha
  rw [mkKey_key, dictSet_new hk] at ha
  have hw := h.wf.append ha
  have hmap : ∀ k', mapGet k' (mapSet k [c.body.length] c.map) = if k' = k then some [c.body.length] else mapGet k' c.map := by
    intro k'
    rw [mapGet_mapSet]
    by_cases h : k = k'
    · rw [if_pos h, if_pos h.symm]
    · rw [if_neg h, if_neg fun h0 => h h0.symm]
  refine ⟨_, ha, hm, ⟨⟨h.parsed, hw, ?_, ?_⟩, ?_, ?_, ?_, ?_⟩, rfl, ?_⟩
  · rw [Cont.dict_mk, Cont.body_mk, keysOf_append, keysOf_single, h.keys]
    simp [mkKey_key]
  · intro e hx
    rw [Cont.body_mk] at hx
    rcases List.mem_append.1 hx with hx | hx
    · exact h.ents e hx
    · rw [List.mem_singleton] at hx; subst hx; exact he
  · intro k' hk'
    rw [Cont.dict_mk]
    simp [hk']
  · intro k' hk' hd
    obtain ⟨n, key', v', g1, g2, g3, g4⟩ := h.at hd
    rw [g4]
    refine item_of (i := n) (key := some key') (by rw [Cont.map_mk, hmap, if_neg hk']; exact g1) ?_
    rw [Cont.body_mk, List.getElem?_append_left (List.getElem?_eq_some_iff.1 g2).1, g2]
  · rintro w hw
    cases hw
    refine ⟨by rw [Cont.dict_mk]; simp, item_of (i := c.body.length) (key := some (mkKey k)) (by rw [Cont.map_mk, hmap, if_pos rfl]) ?_⟩
    rw [Cont.body_mk]; simp
  · intro h0; cases h0
  · rw [Cont.map_mk, hmap, if_pos rfl]

theorem InVal.ent {v : Item} (hv : InVal v) (k : Str) {t : Trivia} (hi : Spaces t.indent) (hc : t.comment = []) (ht : t.trail = v.trivia.trail) :
    IEnt (.mk (some (mkKey k)) (v.setTrivia t)) := by
  have h0 := setTrivia_trivia hv.reads.2.1 t
  exact .kv (keySep_mkKey k) (hv.reads.setTrivia _) (by rw [h0]; exact hi) (by rw [h0]; exact hc) (by rw [h0, ht]; exact hv.trail) (by rw [isDated_self]; exact hv.day)

theorem InVal.self {v : Item} (hv : InVal v) (k : Str) : IEnt (.mk (some (mkKey k)) v) := by
  have := hv.ent k (t := v.trivia) (by rw [hv.indent]; exact Spaces.nil) hv.comment rfl
  rwa [setTrivia_self] at this

/-- `t.add(k, v)` -/
theorem InlineOk.add {c : Cont} (h : InlineOk c) {t : Trivia} {k : Str} (hk : k ∉ c.dict) {v : Item} (hv : InVal v) :
    ∃ t' c', Op.run (.inline t false) c (.append k v) = .ok c' ∧ Slot c k (some (v.setTrivia t')) c' := by
  have hnc : v.isComment = false := hv.reads.2.2.2.1
  have key : ∀ t', Spaces t'.indent → t'.comment = [] → t'.trail = v.trivia.trail → inlineAppend false c (some (mkKey k)) v = (Cont.append true c (some (.single (mkKey k))) (v.setTrivia t')).map Prod.fst →
      ∃ t' c', Op.run (.inline t false) c (.append k v) = .ok c' ∧ Slot c k (some (v.setTrivia t')) c' := by
    intro t' h1 h2 h3 h4
    obtain ⟨c', g1, _, g2, _⟩ := h.snoc hk (hv.ent k h1 h2 h3)
    refine ⟨t', c', ?_, g2⟩
    show inlineAppend false c (some (mkKey k)) v = _
    rw [h4, g1]; rfl
  have hws := hv.reads.2.1
  by_cases hd : c.dict.length > 0
  · refine key { v.trivia with indent := [32], comment := [] } ?_ rfl rfl ?_
    · intro x hx
      rw [List.mem_singleton] at hx; subst hx; rfl
    · unfold inlineAppend
      simp only [hws, hnc, hv.indent, hd, Bool.or_false, Bool.false_eq_true, if_false, decide_true, List.isEmpty_nil, Bool.and_self, Bool.not_false, if_true]
      rw [setTrivia_trivia hws, setTrivia_twice]
      rfl
  · refine key { v.trivia with comment := [] } (by rw [hv.indent]; exact Spaces.nil) rfl rfl ?_
    unfold inlineAppend
    simp only [hws, hnc, hv.indent, hd, Bool.or_false, Bool.false_eq_true, if_false, decide_false, List.isEmpty_nil, Bool.and_false, Bool.false_and, Bool.not_false]
    rfl

/-- `t[k] = v` for a new key -/
theorem InlineOk.put {c : Cont} (h : InlineOk c) {t : Trivia} {new : Bool} {k : Str} (hk : k ∉ c.dict) {v : Item} (hv : InVal v) :
    ∃ t' c', Op.run (.inline t new) c (.set k v) = .ok c' ∧ Slot c k (some (v.setTrivia t')) c' := by
  obtain ⟨c', g1, g0, g2, g3, g4⟩ := h.snoc hk (hv.self k)
  have hws := hv.reads.2.1
  have hs : v.setTrivia { v.trivia with comment := [] } = v := by
    have : { v.trivia with comment := [] } = v.trivia := by
      rcases hvt : v.trivia with ⟨a, b, d, e⟩
      have := hv.comment
      rw [hvt] at this
      simp only at this
      subst this; rfl
    rw [this, setTrivia_self]
  have h1 : Op.run (.inline t new) c (.set k v) = c.setItemIndented t.indent k v := by
    show inlineSetItem c t k v = _
    unfold inlineSetItem
    rw [hws]
    simp only [Bool.false_eq_true, if_false]
    rw [hs]
  have h2 : c.setItem k v = .ok c' := by
    unfold Cont.setItem
    rw [fuelFor, has_absent g0]
    dsimp only
    rw [g1]; rfl
  rw [h1]
  unfold Cont.setItemIndented
  rw [fuelFor, has_absent g0]
  dsimp only
  rw [h2]
  simp only [hws, Bool.or_false, Bool.false_eq_true, if_false]
  rcases hr : spaceRun t.indent with _ | ind
  · refine ⟨v.trivia, c', rfl, ?_⟩
    rw [setTrivia_self]; exact g2
  · dsimp only
    rw [g4]
    dsimp only
    refine ⟨{ v.trivia with indent := insertIndent ind v.trivia.indent }, _, rfl, ?_⟩
    have hb : setTriviaAt c.body.length (fun tr => { tr with indent := insertIndent ind tr.indent }) c'.body =
        c'.body.set c.body.length (.mk (some (mkKey k)) (v.setTrivia { v.trivia with indent := insertIndent ind v.trivia.indent })) := by
      rw [g3, setTriviaAt_mid c.body [] _ _ rfl]
      simp
    have hat : c'.body[c.body.length]? = some (.mk (some (mkKey k)) v) := by rw [g3]; simp
    have hw : (Cont.mk (setTriviaAt c.body.length (fun tr => { tr with indent := insertIndent ind tr.indent }) c'.body) c'.map c'.dict c'.parsed c'.tableKeys).WF :=
      g2.ok.wf.of_shape (setTriviaAt_shape _ _ _) _ _
    rw [hb] at hw ⊢
    have := g2.ok.change g4 hat (mkKey_key k) (m := c'.map) (fun _ => rfl) hw (hv.ent k (by
      show Spaces (insertIndent ind v.trivia.indent)
      rw [hv.indent]
      unfold insertIndent
      simpa using spaces_spaceRun hr) hv.comment rfl)
    exact ⟨this.ok, fun k' hk' => (this.keys k' hk').trans (g2.keys k' hk'), fun k' hk' hd => (this.items k' hk' ((g2.keys k' hk').2 hd)).trans (g2.items k' hk' hd), this.at_, fun h0 => by cases h0⟩

/-- `del t[k]` -/
theorem InlineOk.del {c : Cont} (h : InlineOk c) {t : Trivia} {new : Bool} {k : Str} (hk : k ∈ c.dict) :
    ∃ c', Op.run (.inline t new) c (.remove k) = .ok c' ∧ Slot c k none c' := by
  obtain ⟨i, key, old, hm, hb, hkk, hi⟩ := h.at hk
  have hr : c.remove k = .ok (.mk (nullAt [i] c.body) (mapDel k c.map) (dictDel k c.dict) c.parsed c.tableKeys) := by
    unfold Cont.remove
    rw [hm]
  have hw' := h.wf.remove_ok hr
  refine ⟨_, hr, ?_⟩
  have hnull : nullAt [i] c.body = c.body.set i Entry.nullEntry := rfl
  rw [hnull] at hw' ⊢
  obtain ⟨a, b, h1, h2, _⟩ := set_split hb Entry.nullEntry
  refine ⟨⟨h.parsed, hw', ?_, fun e hx => ?_⟩, fun k' hk' => ?_, fun k' hk' hd => ?_, (fun w hw => by cases hw), fun _ => ?_⟩
  · have hnd := h.wf.dictNodup
    rw [Cont.dict_mk, Cont.body_mk, h2]
    rw [h.keys, h1] at hnd
    rw [h.keys, h1]
    have e1 : ∀ x : Entry, a ++ x :: b = a ++ ([x] ++ b) := fun x => by simp
    rw [e1] at hnd
    rw [e1, e1]
    simp only [keysOf_append, keysOf_single, Entry.key_mk, Entry.nullEntry, hkk] at hnd ⊢
    rw [List.nodup_append] at hnd
    obtain ⟨_, h4, h5⟩ := hnd
    rw [List.cons_append, List.nil_append, List.nodup_cons] at h4
    unfold dictDel
    rw [List.filter_append, List.cons_append, List.filter_cons_of_neg (by simp), List.nil_append]
    congr 1
    · rw [List.filter_eq_self]
      intro x hx
      have := h5 x hx k (by simp)
      simpa using this
    · rw [List.filter_eq_self]
      intro x hx
      have : x ≠ k := fun h0 => h4.1 (h0 ▸ hx)
      simpa using this
  · rcases List.mem_or_eq_of_mem_set hx with hx | rfl
    · exact h.ents e hx
    · exact .null
  · rw [Cont.dict_mk]
    unfold dictDel
    simp [hk']
  · obtain ⟨n, key', v', g1, g2, g3, g4⟩ := h.at hd
    rw [g4]
    refine item_of (i := n) (key := some key') (by rw [Cont.map_mk, mapGet_mapDel, if_neg fun h => hk' (Eq.symm h)]; exact g1) ?_
    rw [Cont.body_mk, List.getElem?_set_ne, g2]
    rintro rfl
    rw [hb] at g2
    cases g2
    exact hk' (g3.symm.trans hkk)
  · rw [Cont.dict_mk]
    unfold dictDel
    simp

end Tomlkit
