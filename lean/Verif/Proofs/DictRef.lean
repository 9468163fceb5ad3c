import Verif.Proofs.DictView
/-!
# A flat container is a dictionary (C12)
-/
namespace Tomlkit
open Spec

theorem flat_rawAppend {c c' : Cont} (h : Flat c) {key : Option SKey} {v : Item} (hv : v.isTableLike = false)
    (hr : c.rawAppend key v = .ok c') : Flat c' := by
  intro e he
  rw [rawAppend_body hr, List.mem_append, List.mem_singleton] at he
  rcases he with he | rfl
  · exact h e he
  · exact hv

theorem flat_modify {b : List Entry} (h : ∀ e ∈ b, e.v.isTableLike = false) {i : Nat} {f : Entry → Entry}
    (hf : ∀ e, (f e).v.isTableLike = e.v.isTableLike) : ∀ e ∈ b.modify i f, e.v.isTableLike = false := by
  intro e he
  rcases mem_modify_of he with h1 | ⟨x, hx, rfl⟩
  · exact h e h1
  · rw [hf]; exact h x hx

theorem flat_addTrailNl {b : List Entry} (h : ∀ e ∈ b, e.v.isTableLike = false) (i : Nat) :
    ∀ e ∈ addTrailNl i b, e.v.isTableLike = false := by
  refine flat_modify h ?_
  intro e
  split
  · rfl
  · exact isTableLike_setTrivia _ _

theorem flat_appendTail {c c' : Cont} (h : Flat c) {key : Option SKey} {v : Item} (hv : v.isTableLike = false)
    (hr : c.appendTail key v = .ok c') : Flat c' := by
  unfold Cont.appendTail at hr
  rcases key with _ | k <;> dsimp only at hr
  · exact flat_rawAppend h hv hr
  · split at hr
    · split at hr
      · unfold Cont.insertAt at hr
        split at hr
        · cases hr
        · cases hr
          intro e he
          rcases mem_insertIdx_of he with rfl | h1
          · exact hv
          · split at h1
            · exact flat_addTrailNl h _ e h1
            · exact h e h1
      · exact flat_rawAppend (c := Cont.mk _ _ _ _ _) (flat_addTrailNl h _) hv hr
    · exact flat_rawAppend h hv hr

theorem flat_setTriviaAt {c : Cont} (h : Flat c) (i : Nat) (f : Trivia → Trivia) :
    Flat (.mk (setTriviaAt i f c.body) c.map c.dict c.parsed c.tableKeys) :=
  flat_modify h (f := fun e => .mk e.key (e.v.setTrivia (f e.v.trivia))) fun _ => isTableLike_setTrivia _ _

theorem flat_holds {c : Cont} (h : Flat c) {k : Str} : ∀ i old, HoldsAt c i k old → old.isTableLike = false := by
  rintro i old ⟨key, hb, _⟩
  exact h _ (List.mem_of_getElem? hb)

theorem flat_setItem {c c' : Cont} (h : Flat c) (hw : c.WF) {k : Str} {v : Item} (hv : v.isTableLike = false)
    (hr : c.setItem k v = .ok c') : Flat c' := by
  unfold Cont.setItem at hr
  rcases hm : mapGet k c.map with _ | is
  · have hk : mapGet (mkKey k).key c.map = none := by rw [mkKey_key]; exact hm
    rw [fuelFor, has_absent hm] at hr
    dsimp only at hr
    rw [append_plain_new hv hk] at hr
    rcases h1 : c.appendTail (some (mkKey k)) v with e | c1 <;> rw [h1] at hr <;> simp only [Except.map] at hr <;> cases hr
    exact flat_appendTail h hv h1
  · obtain ⟨i, key, old, rfl, hb, hkk, hpl⟩ := single_of_plain hw (flat_holds h) hm
    rw [fuelFor, has_single hm] at hr
    dsimp only at hr
    rw [hm] at hr
    dsimp only at hr
    rw [replaceAt_plain hb hkk hpl hv] at hr
    cases hr
    intro e he
    rcases List.mem_or_eq_of_mem_set he with h1 | rfl
    · exact h e h1
    · rw [Entry.v_mk]
      unfold retrivia
      split
      · exact hv
      · rw [isTableLike_setTrivia]; exact hv

theorem flat_setItemIndented {c c' : Cont} (h : Flat c) (hw : c.WF) {k ind : Str} {v : Item} (hv : v.isTableLike = false)
    (hr : c.setItemIndented ind k v = .ok c') : Flat c' := by
  unfold Cont.setItemIndented at hr
  split at hr
  · cases hr
  rcases h1 : c.setItem k v with e | c1 <;> rw [h1] at hr <;> dsimp only at hr
  · cases hr
  have hf := flat_setItem h hw hv h1
  split at hr
  · cases hr; exact hf
  · split at hr
    · cases hr; exact hf
    · split at hr <;> cases hr
      exact flat_setTriviaAt hf _ _

theorem flat_remove {c c' : Cont} (h : Flat c) {k : Str} (hr : c.remove k = .ok c') : Flat c' := by
  unfold Cont.remove at hr
  split at hr
  · cases hr
  · cases hr
    rename_i is _
    intro e he
    obtain ⟨j, hj⟩ := List.mem_iff_getElem?.1 he
    rw [Cont.body_mk, nullAt_get] at hj
    split at hj
    · obtain ⟨_, _, rfl⟩ := Option.map_eq_some_iff.1 hj
      rfl
    · exact h e (List.mem_of_getElem? hj)

/-! ## Against the dictionary -/

theorem find_fst (d : Dict) (k : Str) : (d.find? fun p => p.1 == k).isSome = d.has k := by
  unfold Dict.has
  induction d with
  | nil => rfl
  | cons p r ih =>
    rw [List.find?_cons, List.any_cons]
    rcases (p.1 == k) with _ | _ <;> simp [ih]

theorem shows_has {c : Cont} {d : Dict} (h : Shows c d) (k : Str) : d.has k = (mapGet k c.map).isSome := by
  have := h.2 k
  rw [← find_fst]
  rcases hm : mapGet k c.map with _ | is
  · rw [reads_none.2 hm] at this
    rcases hf : d.find? fun p => p.1 == k with _ | p
    · rw [hf]; rfl
    · rw [hf] at this; cases this
  · unfold reads at this
    rw [hm] at this
    rcases hf : d.find? fun p => p.1 == k with _ | p
    · rw [hf] at this; cases this
    · rw [hf]; rfl

theorem find_set_ne (d : Dict) (k k' : Str) (v : PyVal) (hne : k' ≠ k) :
    ((d.set k v).find? fun p => p.1 == k') = d.find? fun p => p.1 == k' := by
  unfold Dict.set
  split
  · induction d with
    | nil => rfl
    | cons p r ih =>
      rw [List.map_cons, List.find?_cons, List.find?_cons]
      have ih : (List.find? (fun p => p.1 == k') (List.map (fun p => if p.1 = k then (k, v) else p) r)) =
          List.find? (fun p => p.1 == k') r := by
        rename_i h
        by_cases hr : Dict.has r k = true
        · exact ih hr
        · have : List.map (fun p => if p.1 = k then (k, v) else p) r = r := by
            unfold Dict.has at hr
            rw [List.map_congr_left (g := id), List.map_id]
            intro q hq
            rw [if_neg, id]
            intro hk
            exact hr (List.any_eq_true.2 ⟨q, hq, by simp [hk]⟩)
          rw [this]
      by_cases hp : p.1 = k
      · have h1 : ((k : Str) == k') = false := by simpa using Ne.symm hne
        simp only [hp, if_true, h1, ih]
      · simp only [hp, if_false, ih]
  · rw [List.find?_append]
    have : ((k : Str) == k') = false := by simpa using Ne.symm hne
    simp [this]

theorem find_set_eq (d : Dict) (k : Str) (v : PyVal) : ((d.set k v).find? fun p => p.1 == k) = some (k, v) := by
  unfold Dict.set
  split
  · rename_i h
    unfold Dict.has at h
    induction d with
    | nil => simp at h
    | cons p r ih =>
      rw [List.map_cons, List.find?_cons]
      by_cases hp : p.1 = k
      · simp [hp]
      · have h1 : (p.1 == k) = false := by simpa using hp
        rw [List.any_cons, h1, Bool.false_or] at h
        simp only [hp, if_false, h1]
        exact ih h
  · rename_i h
    rw [List.find?_append]
    have : (d.find? fun p => p.1 == k) = none := by
      rw [← Option.not_isSome_iff_eq_none, find_fst]; exact h
    rw [this]; simp

theorem set_keys (d : Dict) (k : Str) (v : PyVal) : (d.set k v).map Prod.fst =
    if d.has k then d.map Prod.fst else d.map Prod.fst ++ [k] := by
  unfold Dict.set
  split
  · rw [List.map_map]
    apply List.map_congr_left
    intro p _
    simp only [Function.comp]
    split
    · rename_i h; exact h.symm
    · rfl
  · rw [List.map_append]; rfl

theorem shows_set {c c' : Cont} {d : Dict} (h : Shows c d) {k : Str} {v : PyVal}
    (h1 : mapGet k c.map = none → NewKey c k v c') (h2 : mapGet k c.map ≠ none → OldKey c k v c') :
    Shows c' (d.set k v) := by
  have hd : c'.dict = (d.set k v).map Prod.fst ∧ reads c' k = some [v] ∧ ∀ k', k' ≠ k → reads c' k' = reads c k' := by
    rw [set_keys, shows_has h, ← h.1]
    by_cases hm : mapGet k c.map = none
    · rw [hm]; exact h1 hm
    · rw [Option.isSome_iff_ne_none.2 hm, if_pos rfl]; exact h2 hm
  refine ⟨hd.1, ?_⟩
  intro k'
  by_cases hk : k' = k
  · subst hk
    rw [find_set_eq, hd.2.1]; rfl
  · rw [find_set_ne _ _ _ _ hk, hd.2.2 k' hk]; exact h.2 k'

theorem shows_del {c c' : Cont} {d : Dict} (h : Shows c d) {k : Str} (hr : c'.dict = dictDel k c.dict ∧ reads c' k = none ∧
    ∀ k', k' ≠ k → reads c' k' = reads c k') : Shows c' (d.del k) := by
  refine ⟨?_, ?_⟩
  · rw [hr.1, h.1]
    unfold dictDel Dict.del
    rw [List.filter_map]; rfl
  · intro k'
    have hf : ((d.del k).find? fun p => p.1 == k') = if k' = k then none else d.find? fun p => p.1 == k' := by
      unfold Dict.del
      rw [List.find?_filter]
      by_cases hk : k' = k
      · subst hk
        rw [if_pos rfl, List.find?_eq_none]
        intro p _; simp
      · rw [if_neg hk]
        congr 1
        funext p
        by_cases hp : p.1 = k'
        · have : (p.1 == k) = false := by rw [hp]; simpa using hk
          simp [hp, hk]
        · have : (p.1 == k') = false := by simpa using hp
          simp [this]
    rw [hf]
    by_cases hk : k' = k
    · subst hk; rw [if_pos rfl, hr.2.1]; rfl
    · rw [if_neg hk, hr.2.2 k' hk]; exact h.2 k'

/-- consistent, flat and showing a dictionary -/
structure Is (c : Cont) (d : Dict) : Prop where
  wf : c.WF
  flat : Flat c
  shows : Shows c d

theorem append_none_plain {c : Cont} {v : Item} (hv : v.isTableLike = false) : Cont.append true c none v =
    .ok (.mk (c.body ++ [.mk none v]) c.map c.dict c.parsed c.tableKeys, false) := by
  unfold Cont.append fuelFor
  dsimp only
  rw [Cont.append1]
  simp only [Bool.false_and, Bool.false_eq_true, if_false]
  rw [prepare_plain hv]
  rfl

theorem is_add {c : Cont} {d : Dict} (h : Is c d) {v : Item} (hv : v.isTableLike = false) :
    Is (.mk (c.body ++ [.mk none v]) c.map c.dict c.parsed c.tableKeys) d := by
  have hr : c.rawAppend none v = .ok (.mk (c.body ++ [.mk none v]) c.map c.dict c.parsed c.tableKeys) := rfl
  refine ⟨h.wf.rawAppend (by intro k hk; cases hk) hr, flat_rawAppend h.flat hv hr, h.shows.1, ?_⟩
  intro k
  rw [← h.shows.2 k]
  rcases hm : mapGet k c.map with _ | is
  · rw [reads_none.2 hm, reads_none]; exact hm
  · refine reads_eq is is id hm hm (by simp) fun i hi => ?_
    have hlt := h.wf.idx.lt hm hi
    simp only [List.length_map] at hlt
    rw [Cont.body_mk, id, List.getElem?_append_left hlt]

theorem is_setTriviaAt {c : Cont} {d : Dict} (h : Is c d) (i : Nat) (f : Trivia → Trivia) :
    Is (.mk (setTriviaAt i f c.body) c.map c.dict c.parsed c.tableKeys) d :=
  ⟨h.wf.of_shape (setTriviaAt_shape i f c.body) _ _, flat_setTriviaAt h.flat _ _, h.shows.1, fun k => by
    rw [reads_setTriviaAt]; exact h.shows.2 k⟩

theorem is_append {c : Cont} {d : Dict} (h : Is c d) {k : Str} {v : Item} (hv : v.isTableLike = false) :
    (d.has k = true → Cont.append true c (some (.single (mkKey k))) v = .error .keyAlreadyPresent) ∧
    (d.has k = false → mapGet k c.map = none ∧ ∃ c' i, Cont.append true c (some (.single (mkKey k))) v = .ok (c', false) ∧
      mapGet k c'.map = some [i] ∧ Is c' (d.set k v.pyValue)) := by
  rw [shows_has h.shows]
  rcases hm : mapGet k c.map with _ | is
  · refine ⟨(by simp), fun _ => ?_⟩
    have hk : mapGet (mkKey k).key c.map = none := by rw [mkKey_key]; exact hm
    obtain ⟨c', hc'⟩ := appendTail_new_ok v hk
    have ha := append_plain_new (validate := true) hv hk
    rw [hc'] at ha
    have hn := reads_appendTail h.wf hk hc'
    rw [mkKey_key] at hn
    have hw' : c'.WF := h.wf.append ha
    obtain ⟨i, hi⟩ := hn.mapGet hw'
    exact ⟨rfl, c', i, ha, hi, hw', flat_appendTail h.flat hv hc', shows_set h.shows (fun _ => hn) fun hne => absurd hm hne⟩
  · refine ⟨fun _ => ?_, (by simp)⟩
    obtain ⟨i, key, old, rfl, hb, hkk, hpl⟩ := single_of_plain h.wf (flat_holds h.flat) hm
    exact append_plain_present h.wf hv (by rw [mkKey_key]; exact hm)

/-- one operation: the container does what the dictionary does -/
theorem dict_step (hd : Holder) {c : Cont} {d : Dict} (h : Is c d) (o : DictOp) (ho : o.Plain) :
    (∀ d', o.onDict d = .ok d' → ∃ c', o.op.run hd c = .ok c' ∧ Is c' d') ∧
    (∀ e, o.onDict d = .error e → o.op.run hd c = .error e) := by
  rcases o with ⟨k, v⟩ | ⟨k, v⟩ | v | k
  · -- set
    have hv : v.isTableLike = false := ho
    refine ⟨?_, fun e he => by cases he⟩
    intro d' hd'
    cases hd'
    have key : ∀ (ind : Str) (w : Item), w.isTableLike = false → w.pyValue = v.pyValue →
        ∃ c', c.setItemIndented ind k w = .ok c' ∧ Is c' (d.set k v.pyValue) := by
      intro ind w hw hwv
      obtain ⟨c', h1, h2, h3⟩ := setItemIndented_plain h.wf (flat_holds h.flat) hw ind (k := k)
      rw [hwv] at h2 h3
      refine ⟨c', h1, ?_, flat_setItemIndented h.flat h.wf hw h1, shows_set h.shows h2 h3⟩
      unfold Cont.setItemIndented at h1
      split at h1
      · cases h1
      rcases h4 : c.setItem k w with e | c1 <;> rw [h4] at h1 <;> dsimp only at h1
      · cases h1
      have hw1 := h.wf.setItem h4
      split at h1
      · cases h1; exact hw1
      · split at h1
        · cases h1; exact hw1
        · split at h1 <;> cases h1
          exact hw1.of_shape (setTriviaAt_shape _ _ _) _ _
    rcases hd with _ | t | ⟨t, new⟩
    · obtain ⟨c', h1, h2, h3⟩ := setItem_plain h.wf (flat_holds h.flat) hv (k := k)
      exact ⟨c', h1, h.wf.setItem h1, flat_setItem h.flat h.wf hv h1, shows_set h.shows h2 h3⟩
    · exact key t.indent v hv rfl
    · refine key t.indent _ ?_ ?_
      · split
        · exact hv
        · rw [isTableLike_setTrivia]; exact hv
      · split
        · rfl
        · exact pyValue_setTrivia _ _
  · -- append
    have hv : v.isTableLike = false := ho
    constructor
    · intro d' hd'
      unfold DictOp.onDict at hd'
      dsimp only at hd'
      split at hd'
      · cases hd'
      rename_i hnot
      cases hd'
      rcases hd with _ | t | ⟨t, new⟩
      · obtain ⟨_, c', i, h1, _, h2⟩ := (is_append h hv).2 (by simpa using hnot)
        refine ⟨c', ?_, h2⟩
        show (Cont.append true c _ v).map Prod.fst = _
        rw [h1]; rfl
      · obtain ⟨h0, c', i, h1, hi, h2⟩ := (is_append h hv).2 (by simpa using hnot)
        show ∃ c', tableAppendStr t c k v = _ ∧ _
        unfold tableAppendStr
        rw [h1]
        dsimp only
        split
        · exact ⟨c', rfl, h2⟩
        · split
          · exact ⟨c', rfl, h2⟩
          · rw [h0, hi]
            exact ⟨_, rfl, is_setTriviaAt h2 _ _⟩
      · show ∃ c', inlineAppend new c (some (mkKey k)) v = _ ∧ _
        unfold inlineAppend
        generalize hw : (if (v.isWhitespace || v.isComment) = true then v else
          (if (v.trivia.indent.isEmpty && decide (c.dict.length > 0) && !new) = true
            then v.setTrivia { v.trivia with indent := [32] } else v).setTrivia
            { (if (v.trivia.indent.isEmpty && decide (c.dict.length > 0) && !new) = true
            then v.setTrivia { v.trivia with indent := [32] } else v).trivia with comment := [] }) = w
        have hwt : w.isTableLike = false ∧ w.pyValue = v.pyValue := by
          rw [← hw]
          split
          · exact ⟨hv, rfl⟩
          · rw [isTableLike_setTrivia, pyValue_setTrivia]
            split
            · rw [isTableLike_setTrivia, pyValue_setTrivia]; exact ⟨hv, rfl⟩
            · exact ⟨hv, rfl⟩
        obtain ⟨_, c', i, h1, _, h2⟩ := (is_append h hwt.1 (k := k)).2 (by simpa using hnot)
        rw [hwt.2] at h2
        refine ⟨c', ?_, h2⟩
        show (Cont.append true c (some (.single (mkKey k))) w).map Prod.fst = _
        rw [h1]; rfl
    · intro e he
      unfold DictOp.onDict at he
      dsimp only at he
      split at he
      · cases he
        rename_i hhas
        have hp : ∀ w : Item, w.isTableLike = false →
            Cont.append true c (some (.single (mkKey k))) w = .error .keyAlreadyPresent :=
          fun w hw => (is_append h hw).1 hhas
        rcases hd with _ | t | ⟨t, new⟩
        · show (Cont.append true c _ v).map Prod.fst = _
          rw [hp v hv]; rfl
        · show tableAppendStr t c k v = _
          unfold tableAppendStr
          rw [hp v hv]
        · show inlineAppend new c (some (mkKey k)) v = _
          unfold inlineAppend
          show (Cont.append true c (some (.single (mkKey k))) _).map Prod.fst = _
          rw [hp]
          · rfl
          · split
            · exact hv
            · rw [isTableLike_setTrivia]
              split
              · rw [isTableLike_setTrivia]; exact hv
              · exact hv
      · cases he
  · -- add
    refine ⟨?_, fun e he => by cases he⟩
    intro d' hd'
    cases hd'
    have hv : v.isTableLike = false ∧ (v.isWhitespace || v.isComment) = true := by
      rcases ho with h1 | h1 <;>
        rcases v with _ | _ | _ | _ | _ | _ | _ | _ | _ | _ | _ | tb | ⟨ts, t, nm, p⟩ | _ <;>
        first | exact ⟨rfl, rfl⟩ | cases h1
    have hi := is_add h hv.1
    unfold DictOp.op Op.run
    dsimp only
    rw [if_pos hv.2]
    rcases hd with _ | t | ⟨t, new⟩
    · dsimp only
      rw [append_none_plain hv.1]
      exact ⟨_, rfl, hi⟩
    · dsimp only
      unfold tableAppendKey
      rw [append_none_plain hv.1]
      dsimp only [Option.map_none]
      split
      · exact ⟨_, rfl, hi⟩
      · have hg : (c.body ++ [Entry.mk none v])[(c.body ++ [Entry.mk none v]).length - 1]? = some (Entry.mk none v) := by
          simp
        simp only [Cont.body_mk, Option.bind_some, hg, Option.map_some, Entry.v_mk]
        by_cases hws : v.isWhitespace = true
        · exact ⟨_, if_pos hws, hi⟩
        · exact ⟨_, (if_neg hws).trans (if_neg (by simp)), is_setTriviaAt hi _ _⟩
    · dsimp only
      unfold inlineAppend
      rw [if_pos hv.2]
      show ∃ c', (Cont.append true c none v).map Prod.fst = _ ∧ _
      rw [append_none_plain hv.1]
      exact ⟨_, rfl, hi⟩
  · -- remove
    unfold DictOp.onDict DictOp.op Op.run
    dsimp only
    rw [shows_has h.shows]
    rcases hm : mapGet k c.map with _ | is
    · simp only [Option.isSome_none, Bool.false_eq_true, if_false]
      refine ⟨(fun d' hd' => by cases hd'), ?_⟩
      intro e he
      cases he
      unfold Cont.remove
      rw [hm]
    · simp only [Option.isSome_some, if_true]
      refine ⟨?_, fun e he => by cases he⟩
      intro d' hd'
      cases hd'
      rcases hr : c.remove k with e | c'
      · unfold Cont.remove at hr
        rw [hm] at hr; cases hr
      · exact ⟨c', rfl, h.wf.remove_ok hr, flat_remove h.flat hr, shows_del h.shows (reads_remove h.wf hr)⟩

end Tomlkit
