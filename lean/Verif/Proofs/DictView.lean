import Verif.Proofs.DeepEdit
/-!
# Reads after edits (C12)
-/
namespace Tomlkit
open Spec

theorem pyValue_setTrivia (v : Item) (t : Trivia) : (v.setTrivia t).pyValue = v.pyValue := by
  rcases v with _ | _ | _ | _ | _ | _ | _ | _ | _ | _ | _ | ⟨c, _, _, _, _, _⟩ | _ | _ <;> rfl

theorem invalidate_plain {v : Item} (h : v.isTableLike = false) : v.invalidate = v := by
  rcases v with _ | _ | _ | _ | _ | _ | _ | _ | _ | _ | _ | tb | ⟨ts, t, nm, p⟩ | _ <;>
    first | rfl | (simp [Item.isTableLike, Item.isTable, Item.isAoT] at h)

theorem isTableLike_setTrivia (v : Item) (t : Trivia) : (v.setTrivia t).isTableLike = v.isTableLike := by
  unfold Item.isTableLike; rw [Item.isTable_setTrivia, Item.isAoT_setTrivia]

theorem reads_none {c : Cont} {k : Str} : reads c k = none ↔ mapGet k c.map = none := by
  unfold reads; rw [Option.map_eq_none_iff]

/-- reads depend only on the index and the values at its positions -/
theorem reads_eq {c c' : Cont} {k k' : Str} (is is' : List Nat) (f : Nat → Nat) (h : mapGet k c.map = some is)
    (h' : mapGet k' c'.map = some is') (hf : is' = is.map f)
    (hv : ∀ i ∈ is, (c'.body[f i]?).map (fun e => e.v.pyValue) = (c.body[i]?).map fun e => e.v.pyValue) :
    reads c' k' = reads c k := by
  unfold reads
  rw [h, h', hf, Option.map_some, Option.map_some, List.filterMap_map]
  congr 1
  apply filterMap_congr_mem
  intro i hi
  exact hv i hi

theorem reads_remove {c c' : Cont} (h : c.WF) {k : Str} (hr : c.remove k = .ok c') :
    c'.dict = dictDel k c.dict ∧ reads c' k = none ∧ ∀ k', k' ≠ k → reads c' k' = reads c k' := by
  unfold Cont.remove at hr
  split at hr
  · cases hr
  rename_i is his
  cases hr
  refine ⟨rfl, ?_, ?_⟩
  · rw [reads_none, Cont.map_mk, mapGet_mapDel, if_pos rfl]
  · intro k' hk
    rcases hm : mapGet k' c.map with _ | is'
    · rw [reads_none.2 hm, reads_none, Cont.map_mk, mapGet_mapDel, if_neg (Ne.symm hk), hm]
    · refine reads_eq is' is' id hm ?_ (by simp) ?_
      · rw [Cont.map_mk, mapGet_mapDel, if_neg (Ne.symm hk), hm]
      · intro i hi
        have hne : i ∉ is := by
          intro hin
          have h1 := h.idx.at hm hi
          have h2 := h.idx.at his hin
          rw [h1] at h2
          simp at h2; exact hk h2
        rw [Cont.body_mk, nullAt_get, id, if_neg hne]

theorem modify_pyValue {b : List Entry} {i : Nat} {f : Entry → Entry} (hf : ∀ e, (f e).v.pyValue = e.v.pyValue) (j : Nat) :
    ((b.modify i f)[j]?).map (fun e => e.v.pyValue) = (b[j]?).map fun e => e.v.pyValue := by
  rw [List.getElem?_modify]
  rcases b[j]? with _ | e
  · rfl
  · by_cases h : i = j
    · simp [h, hf]
    · simp [h]

theorem addTrailNl_pyValue (b : List Entry) (i j : Nat) :
    ((addTrailNl i b)[j]?).map (fun e => e.v.pyValue) = (b[j]?).map fun e => e.v.pyValue := by
  unfold addTrailNl
  apply modify_pyValue
  intro e
  split
  · rfl
  · exact pyValue_setTrivia _ _

theorem addTrailNl_length (b : List Entry) (i : Nat) : (addTrailNl i b).length = b.length := by
  unfold addTrailNl; rw [List.length_modify]

theorem dictSet_new {k : Str} {d : List Str} (h : k ∉ d) : dictSet k d = d ++ [k] := by
  unfold dictSet; rw [if_neg (by simpa using h)]
theorem dictSet_old {k : Str} {d : List Str} (h : k ∈ d) : dictSet k d = d := by
  unfold dictSet; rw [if_pos (by simpa using h)]

theorem WF.not_mem_dict {c : Cont} (h : c.WF) {k : Str} (hk : mapGet k c.map = none) : k ∉ c.dict := by
  intro hm
  rw [h.dictMem, hk] at hm
  cases hm

/-- what a new key does to the reads -/
def NewKey (c : Cont) (k : Str) (v : PyVal) (c' : Cont) : Prop :=
  c'.dict = c.dict ++ [k] ∧ reads c' k = some [v] ∧ ∀ k', k' ≠ k → reads c' k' = reads c k'

theorem reads_rawAppend {c c' : Cont} (h : c.WF) {k : SKey} {v : Item} (hk : mapGet k.key c.map = none)
    (hr : c.rawAppend (some k) v = .ok c') : NewKey c k.key v.pyValue c' := by
  unfold Cont.rawAppend at hr
  simp only [hk] at hr
  cases hr
  refine ⟨dictSet_new (WF.not_mem_dict h hk), ?_, ?_⟩
  · unfold reads
    rw [Cont.map_mk, mapGet_mapSet, if_pos rfl]
    simp
  · intro k' hne
    rcases hm : mapGet k' c.map with _ | is'
    · rw [reads_none.2 hm, reads_none, Cont.map_mk, mapGet_mapSet, if_neg (Ne.symm hne), hm]
    · refine reads_eq is' is' id hm ?_ (by simp) ?_
      · rw [Cont.map_mk, mapGet_mapSet, if_neg (Ne.symm hne), hm]
      · intro i hi
        have hlt := h.idx.lt hm hi
        simp only [List.length_map] at hlt
        rw [Cont.body_mk, id, List.getElem?_append_left hlt]

theorem rawAppend_new_ok {c : Cont} {k : SKey} (v : Item) (hk : mapGet k.key c.map = none) :
    ∃ c', c.rawAppend (some k) v = .ok c' := by
  unfold Cont.rawAppend
  simp only [hk]
  exact ⟨_, rfl⟩

theorem reads_insertAt {c c' : Cont} (h : c.WF) {idx : Nat} {k : SKey} {v : Item} (hk : mapGet k.key c.map = none)
    (hr : c.insertAt idx k v = .ok c') : NewKey c k.key v.pyValue c' := by
  unfold Cont.insertAt at hr
  split at hr
  · cases hr
  rename_i hlt
  have hlt : idx < c.body.length := by omega
  have hs : mapGet k.key (shiftFrom idx c.map) = none := by rw [mapGet_shift, hk]; rfl
  simp only [hs] at hr
  cases hr
  generalize hb : (if (decide (0 < idx) && !v.isTableLike) = true then addTrailNl (idx - 1) c.body else c.body) = b
  have hlen : b.length = c.body.length := by
    rw [← hb]; split
    · exact addTrailNl_length _ _
    · rfl
  have hval : ∀ j : Nat, (b[j]?).map (fun e : Entry => e.v.pyValue) = (c.body[j]?).map fun e : Entry => e.v.pyValue := by
    intro j
    rw [← hb]; split
    · exact addTrailNl_pyValue _ _ _
    · rfl
  refine ⟨dictSet_new (WF.not_mem_dict h hk), ?_, ?_⟩
  · unfold reads
    rw [Cont.map_mk, mapGet_mapSet, if_pos rfl, Cont.body_mk]
    simp only [Option.map_some, List.filterMap_cons, List.filterMap_nil]
    rw [List.getElem?_insertIdx]
    simp [hlen, Nat.le_of_lt hlt]
  · intro k' hne
    rcases hm : mapGet k' c.map with _ | is'
    · rw [reads_none.2 hm, reads_none, Cont.map_mk, mapGet_mapSet, if_neg (Ne.symm hne), mapGet_shift, hm]; rfl
    · refine reads_eq is' (is'.map fun v => if idx ≤ v then v + 1 else v) _ hm ?_ rfl ?_
      · rw [Cont.map_mk, mapGet_mapSet, if_neg (Ne.symm hne), mapGet_shift, hm]; rfl
      · intro i hi
        have hilt := h.idx.lt hm hi
        simp only [List.length_map] at hilt
        rw [Cont.body_mk, insert_get_shift b _ idx i (by omega) (by omega)]
        exact hval i

theorem reads_appendTail {c c' : Cont} (h : c.WF) {k : SKey} {v : Item} (hk : mapGet k.key c.map = none)
    (hr : c.appendTail (some k) v = .ok c') : NewKey c k.key v.pyValue c' := by
  unfold Cont.appendTail at hr
  dsimp only at hr
  split at hr
  · split at hr
    · exact reads_insertAt h hk hr
    · have hw : (Cont.mk (addTrailNl (c.body.length - 1) c.body) c.map c.dict c.parsed c.tableKeys).WF :=
        h.of_shape (addTrailNl_shape _ _) _ _
      have h1 := reads_rawAppend hw hk hr
      refine ⟨h1.1, h1.2.1, fun k' hne => (h1.2.2 k' hne).trans ?_⟩
      rcases hm : mapGet k' c.map with _ | is'
      · rw [reads_none.2 hm, reads_none]; exact hm
      · exact reads_eq is' is' id hm hm (by simp) fun i _ => addTrailNl_pyValue _ _ _
  · exact reads_rawAppend h hk hr

theorem appendTail_new_ok {c : Cont} {k : SKey} (v : Item) (hk : mapGet k.key c.map = none) :
    ∃ c', c.appendTail (some k) v = .ok c' := by
  unfold Cont.appendTail
  dsimp only
  split
  · split
    · rename_i hlt
      unfold Cont.insertAt
      rw [if_neg (by omega)]
      exact ⟨_, rfl⟩
    · exact rawAppend_new_ok (c := Cont.mk _ c.map _ _ _) v hk
  · exact rawAppend_new_ok v hk

theorem prepare_plain {c : Cont} {key : Option SKey} {v : Item} (h : v.isTableLike = false) :
    c.prepare key v = .ok v := by
  unfold Cont.prepare
  rw [h]
  simp only [Bool.false_and, Bool.false_eq_true, if_false]
  rcases v with _ | _ | _ | _ | _ | _ | _ | _ | _ | _ | _ | tb | ⟨ts, t, nm, p⟩ | _ <;>
    first | rfl | (simp [Item.isTableLike, Item.isTable, Item.isAoT] at h)

theorem has_absent {n : Nat} {c : Cont} {k : Str} (h : mapGet k c.map = none) : Cont.has (n + 1) c k = .ok false := by
  rw [Cont.has, h]
theorem has_single {n : Nat} {c : Cont} {k : Str} {i : Nat} (h : mapGet k c.map = some [i]) :
    Cont.has (n + 1) c k = .ok true := by
  rw [Cont.has, h]

/-- appending a new key with a value that is no table -/
theorem append_plain_new {c : Cont} {validate : Bool} {k : SKey} {v : Item} (hv : v.isTableLike = false)
    (hk : mapGet k.key c.map = none) :
    Cont.append validate c (some (.single k)) v = (c.appendTail (some k) v).map (·, false) := by
  unfold Cont.append fuelFor
  simp only [Key.parts]
  rw [Cont.append1]
  simp only [Bool.false_and, Bool.false_eq_true, if_false]
  rw [prepare_plain hv]
  dsimp only
  rw [has_absent hk]

theorem append_plain_present {c : Cont} (h : c.WF) {validate : Bool} {k : SKey} {v : Item} (hv : v.isTableLike = false)
    {i : Nat} (hk : mapGet k.key c.map = some [i]) :
    Cont.append validate c (some (.single k)) v = .error .keyAlreadyPresent := by
  unfold Cont.append fuelFor
  simp only [Key.parts]
  rw [Cont.append1]
  simp only [Bool.false_and, Bool.false_eq_true, if_false]
  rw [prepare_plain hv]
  dsimp only
  rw [has_single hk]
  dsimp only
  have hlt := h.idx.lt hk (List.mem_singleton.2 rfl)
  simp only [List.length_map] at hlt
  have hl : c.lastEntry k.key = some (i, c.body[i]) := by
    unfold Cont.lastEntry
    rw [hk]
    simp [List.getElem?_eq_getElem hlt]
  rw [hl]
  rcases v with _ | _ | _ | _ | _ | _ | _ | _ | _ | _ | _ | tb | ⟨ts, t, nm, p⟩ | _ <;>
    first | rfl | (simp [Item.isTableLike, Item.isTable, Item.isAoT] at hv)

theorem modify_same {α : Type} {l : List α} {i : Nat} {f : α → α} (h : ∀ a, l[i]? = some a → f a = a) :
    l.modify i f = l := by
  apply List.ext_getElem?
  intro j
  rw [List.getElem?_modify]
  by_cases hij : i = j
  · subst hij
    rcases hl : l[i]? with _ | a
    · rfl
    · simp [h a hl]
  · rcases l[j]? with _ | a <;> simp [hij]

theorem finishReplace_plain {c : Cont} {idx : Nat} {e : Entry} (hb : c.body[idx]? = some e)
    (hp : e.v.isTableLike = false) (old : Item) (nk : SKey) : c.finishReplace old nk idx = c := by
  have h0 : (c.body.modify idx fun e => .mk e.key e.v.invalidate) = c.body := by
    apply modify_same
    intro a ha
    rw [hb] at ha; cases ha
    rw [invalidate_plain hp]; cases e; rfl
  unfold Cont.finishReplace
  rw [h0]
  dsimp only
  rw [hb]
  cases c
  rcases e with ⟨key, v⟩
  rcases v with _ | _ | _ | _ | _ | _ | _ | _ | _ | _ | _ | tb | ⟨ts, t, nm, p⟩ | _ <;>
    first | rfl | (simp [Item.isTableLike, Item.isTable, Item.isAoT] at hp)

theorem single_of_plain {c : Cont} (h : c.WF) {k : Str} (hp : ∀ i old, HoldsAt c i k old → old.isTableLike = false)
    {is : List Nat} (hm : mapGet k c.map = some is) :
    ∃ i key old, is = [i] ∧ c.body[i]? = some (.mk (some key) old) ∧ key.key = k ∧ old.isTableLike = false := by
  have hc := consistent_of_WF h
  obtain ⟨hne, hnd⟩ := hc.once.2 k is hm
  rcases is with _ | ⟨i, r⟩
  · exact absurd rfl hne
  obtain ⟨old, key, hb, hk⟩ := hc.cached k _ hm i (List.mem_cons_self ..)
  have hpl := hp i old ⟨key, hb, hk⟩
  refine ⟨i, key, old, ?_, hb, hk, hpl⟩
  rcases r with _ | ⟨j, r⟩
  · rfl
  · exfalso
    obtain ⟨w, hw⟩ := hc.cached k _ hm j (by simp)
    have := (hc.parts i j k old w ⟨key, hb, hk⟩ hw (by rintro rfl; simp at hnd)).1
    simp [Item.isTableLike, this] at hpl

/-- what assigning to an existing key does to the reads -/
def OldKey (c : Cont) (k : Str) (v : PyVal) (c' : Cont) : Prop :=
  c'.dict = c.dict ∧ reads c' k = some [v] ∧ ∀ k', k' ≠ k → reads c' k' = reads c k'

/-- a replacement of a value by a value, spelled out -/
theorem replaceAt_plain {c : Cont} {k : Str} {i : Nat} {key : SKey} {old : Item}
    (hb : c.body[i]? = some (.mk (some key) old)) (hk : key.key = k) (hp : old.isTableLike = false) {v : Item}
    (hv : v.isTableLike = false) :
    c.replaceAt [i] k v = .ok (.mk (c.body.set i (.mk (some key) (retrivia v old))) (mapSet k [i] (mapDel k c.map)) c.dict
      c.parsed c.tableKeys) := by
  have hlt := (List.getElem?_eq_some_iff.1 hb).1
  unfold Cont.replaceAt
  dsimp only
  have : nullAt [] c.body = c.body := rfl
  rw [this, hb]
  simp only [hp, hv, bne_self_eq_false, Bool.false_or, Bool.false_eq_true, if_false]
  have hkk : (k != key.key) = false := by simp [hk]
  simp only [hkk, Bool.false_eq_true, if_false, bne_self_eq_false, hk]
  congr 1
  refine finishReplace_plain (e := .mk (some key) (retrivia v old)) ?_ ?_ _ _
  · rw [Cont.body_mk, List.getElem?_set, if_pos rfl, if_pos hlt]; rfl
  · unfold retrivia
    rw [Entry.v_mk]
    split
    · exact hv
    · rw [isTableLike_setTrivia]; exact hv

theorem retrivia_pyValue (v old : Item) : (retrivia v old).pyValue = v.pyValue := by
  unfold retrivia
  split
  · rfl
  · exact pyValue_setTrivia _ _

theorem reads_set {c : Cont} (h : c.WF) {k : Str} {i : Nat} (hm : mapGet k c.map = some [i]) (key : SKey)
    (w : Item) (hlt : i < c.body.length) (p : Bool) (tk : List Str) :
    OldKey c k w.pyValue (.mk (c.body.set i (.mk (some key) w)) (mapSet k [i] (mapDel k c.map)) c.dict p tk) := by
  refine ⟨rfl, ?_, ?_⟩
  · unfold reads
    rw [Cont.map_mk, mapGet_mapSet, if_pos rfl, Cont.body_mk]
    simp [hlt]
  · intro k' hne
    rcases hm' : mapGet k' c.map with _ | is'
    · rw [reads_none.2 hm', reads_none, Cont.map_mk, mapGet_mapSet, if_neg (Ne.symm hne), mapGet_mapDel,
        if_neg (Ne.symm hne), hm']
    · refine reads_eq is' is' id hm' ?_ (by simp) ?_
      · rw [Cont.map_mk, mapGet_mapSet, if_neg (Ne.symm hne), mapGet_mapDel, if_neg (Ne.symm hne), hm']
      · intro j hj
        have hij : i ≠ j := by
          rintro rfl
          have h1 := h.idx.at hm (List.mem_singleton.2 rfl)
          have h2 := h.idx.at hm' hj
          rw [h1] at h2
          simp at h2; exact hne h2.symm
        rw [Cont.body_mk, id, List.getElem?_set, if_neg hij]

theorem setItem_plain {c : Cont} (h : c.WF) {k : Str} (hp : ∀ i old, HoldsAt c i k old → old.isTableLike = false)
    {v : Item} (hv : v.isTableLike = false) :
    ∃ c', c.setItem k v = .ok c' ∧ (mapGet k c.map = none → NewKey c k v.pyValue c') ∧
      (mapGet k c.map ≠ none → OldKey c k v.pyValue c') := by
  unfold Cont.setItem
  rcases hm : mapGet k c.map with _ | is
  · have hk : mapGet (mkKey k).key c.map = none := by rw [mkKey_key]; exact hm
    obtain ⟨c', hc'⟩ := appendTail_new_ok v hk
    rw [fuelFor, has_absent hm]
    dsimp only
    rw [append_plain_new hv hk, hc']
    refine ⟨c', rfl, fun _ => ?_, fun h => absurd rfl h⟩
    have := reads_appendTail h hk hc'
    rwa [mkKey_key] at this
  · obtain ⟨i, key, old, rfl, hb, hkk, hpl⟩ := single_of_plain h hp hm
    rw [fuelFor, has_single hm]
    dsimp only
    rw [replaceAt_plain hb hkk hpl hv]
    refine ⟨_, rfl, (fun h => by cases h), fun _ => ?_⟩
    have := reads_set h hm key (retrivia v old) (List.getElem?_eq_some_iff.1 hb).1 c.parsed c.tableKeys
    rwa [retrivia_pyValue] at this

/-- changing trivia changes no read -/
theorem reads_setTriviaAt (c : Cont) (i : Nat) (f : Trivia → Trivia) (k : Str) :
    reads (.mk (setTriviaAt i f c.body) c.map c.dict c.parsed c.tableKeys) k = reads c k := by
  rcases hm : mapGet k c.map with _ | is
  · rw [reads_none.2 hm, reads_none]; exact hm
  · refine reads_eq is is id hm hm (by simp) fun j _ => ?_
    exact modify_pyValue (f := fun e => .mk e.key (e.v.setTrivia (f e.v.trivia))) (fun e => pyValue_setTrivia _ _) j

theorem NewKey.mapGet {c c' : Cont} {k : Str} {v : PyVal} (h : NewKey c k v c') (hw : c'.WF) : ∃ i, mapGet k c'.map = some [i] := by
  obtain ⟨h1, h2, h3⟩ := h
  unfold reads at h2
  obtain ⟨is, his, hv⟩ := Option.map_eq_some_iff.1 h2
  have hlen : is.length = 1 := by
    have : ∀ l : List Nat, (∀ i ∈ l, i < c'.body.length) →
        (l.filterMap fun i => (c'.body[i]?).map fun e => e.v.pyValue).length = l.length := by
      intro l hl
      induction l with
      | nil => rfl
      | cons a r ih =>
        have ha := hl a (List.mem_cons_self ..)
        rw [List.filterMap_cons, List.getElem?_eq_getElem ha]
        simp only [Option.map_some, List.length_cons]
        rw [ih fun i hi => hl i (List.mem_cons_of_mem _ hi)]
    have h4 := this is fun i hi => by
      have := hw.idx.lt his hi
      simpa using this
    rw [hv] at h4
    simpa using h4.symm
  rcases is with _ | ⟨i, _ | ⟨j, r⟩⟩
  · simp at hlen
  · exact ⟨i, his⟩
  · simp at hlen

theorem setItemIndented_plain {c : Cont} (h : c.WF) {k : Str}
    (hp : ∀ i old, HoldsAt c i k old → old.isTableLike = false) {v : Item} (hv : v.isTableLike = false) (ind : Str) :
    ∃ c', c.setItemIndented ind k v = .ok c' ∧ (mapGet k c.map = none → NewKey c k v.pyValue c') ∧
      (mapGet k c.map ≠ none → OldKey c k v.pyValue c') := by
  obtain ⟨c', h1, h2, h3⟩ := setItem_plain h hp hv
  have hw := h.setItem h1
  unfold Cont.setItemIndented
  rcases hm : mapGet k c.map with _ | is
  · rw [fuelFor, has_absent hm]
    dsimp only
    rw [h1]
    dsimp only
    have h2 := h2 hm
    split
    · exact ⟨c', rfl, fun _ => h2, fun h => absurd rfl h⟩
    · split
      · exact ⟨c', rfl, fun _ => h2, fun h => absurd rfl h⟩
      · obtain ⟨i, hi⟩ := h2.mapGet hw
        rw [hi]
        refine ⟨_, rfl, fun _ => ⟨h2.1, ?_, ?_⟩, fun h => absurd rfl h⟩
        · rw [reads_setTriviaAt]; exact h2.2.1
        · intro k' hne; rw [reads_setTriviaAt]; exact h2.2.2 k' hne
  · obtain ⟨i, key, old, rfl, hb, hkk, hpl⟩ := single_of_plain h hp hm
    rw [fuelFor, has_single hm]
    dsimp only
    rw [h1]
    simp only [Bool.true_or, if_true]
    exact ⟨c', rfl, (fun h => by cases h), fun _ => h3 (by rw [hm]; simp)⟩

end Tomlkit
