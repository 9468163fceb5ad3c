import Verif.Proofs.Index
import Verif.Proofs.Arrays
/-!
# Every operation keeps the index of a container consistent
-/
namespace Tomlkit

theorem map_insertIdx {α β : Type} (f : α → β) (l : List α) (i : Nat) (x : α) :
    (l.insertIdx i x).map f = (l.map f).insertIdx i (f x) := by
  apply List.ext_getElem?
  intro j
  rw [List.getElem?_map, List.getElem?_insertIdx, List.getElem?_insertIdx, List.length_map]
  split
  · rw [List.getElem?_map]
  · split
    · split <;> rfl
    · rw [List.getElem?_map]

/-- what the index can see of an entry: its name, and whether it is a table -/
def Entry.shape (e : Entry) : Option Str × Bool := (e.name, e.v.isTable)

@[simp] theorem Entry.shape_mk (k : Option SKey) (v : Item) : (Entry.mk k v).shape = (k.map SKey.key, v.isTable) := rfl
@[simp] theorem Entry.shape_null : Entry.nullEntry.shape = (none, false) := rfl

/-- Consistency of index, body and key list; only tables have several positions. -/
structure WFs (sh : List (Option Str × Bool)) (m : List (Str × List Nat)) (d : List Str) : Prop where
  idx : Idx (sh.map (·.1)) m
  dictNodup : d.Nodup
  dictMem : ∀ k, k ∈ d ↔ (mapGet k m).isSome = true
  multi : ∀ k is, mapGet k m = some is → 1 < is.length → ∀ i ∈ is, sh[i]? = some (some k, true)

/-- consistency of a container -/
def Cont.WF (c : Cont) : Prop := WFs (c.body.map Entry.shape) c.map c.dict

theorem Cont.WF_mk (b m d p t) : (Cont.mk b m d p t).WF ↔ WFs (b.map Entry.shape) m d := Iff.rfl

theorem Cont.WF.of_shape {c : Cont} (h : c.WF) {b : List Entry} (hb : b.map Entry.shape = c.body.map Entry.shape)
    (p : Bool) (t : List Str) : (Cont.mk b c.map c.dict p t).WF := by
  rw [Cont.WF_mk, hb]; exact h

theorem shape_names (b : List Entry) : (b.map Entry.shape).map (·.1) = b.map Entry.name := by
  rw [List.map_map]; rfl

theorem Cont.WF_empty (p : Bool) : (Cont.empty p).WF := by
  refine ⟨Idx.empty, List.nodup_nil, by intro k; simp [Cont.empty, mapGet], ?_⟩
  intro k is h; cases h

theorem WFs.append_none {sh : List (Option Str × Bool)} {m : List (Str × List Nat)} {d : List Str} (h : WFs sh m d)
    (tb : Bool) : WFs (sh ++ [(none, tb)]) m d := by
  refine ⟨?_, h.dictNodup, h.dictMem, ?_⟩
  · rw [List.map_append]; exact h.idx.append_none
  · intro k is hk hl i hi
    have := h.multi k is hk hl i hi
    rw [List.getElem?_append_left]
    · exact this
    · exact (List.getElem?_eq_some_iff.1 this).1

theorem dict_mapSet {m : List (Str × List Nat)} {d : List Str} (hd : ∀ k, k ∈ d ↔ (mapGet k m).isSome = true)
    (k : Str) (v : List Nat) (x : Str) : x ∈ dictSet k d ↔ (mapGet x (mapSet k v m)).isSome = true := by
  rw [mem_dictSet, mapGet_mapSet, hd]
  by_cases h : k = x
  · simp [h]
  · simp [h, Ne.symm h]

theorem dict_mapDel {m : List (Str × List Nat)} {d : List Str} (hd : ∀ k, k ∈ d ↔ (mapGet k m).isSome = true)
    (k : Str) (x : Str) : x ∈ dictDel k d ↔ (mapGet x (mapDel k m)).isSome = true := by
  rw [mem_dictDel, mapGet_mapDel, hd]
  by_cases h : k = x
  · simp [h]
  · simp [h, Ne.symm h]

theorem WFs.append_some {sh : List (Option Str × Bool)} {m : List (Str × List Nat)} {d : List Str} (h : WFs sh m d)
    (k : Str) (tb : Bool)
    (ht : ∀ is, mapGet k m = some is → tb = true ∧ ∀ i ∈ is, sh[i]? = some (some k, true)) :
    WFs (sh ++ [(some k, tb)]) (mapSet k ((mapGet k m).getD [] ++ [sh.length]) m) (dictSet k d) := by
  refine ⟨?_, dictSet_nodup h.dictNodup, dict_mapSet h.dictMem k _, ?_⟩
  · have := h.idx.append_some k
    rw [List.length_map] at this
    rw [List.map_append]; exact this
  · intro k' is
    rw [mapGet_mapSet]
    by_cases hk : k = k'
    · subst hk
      simp only [if_true, Option.some.injEq]
      rintro rfl hl i hi
      rcases hm : mapGet k m with _ | js
      · rw [hm] at hl; simp at hl
      · rw [hm] at hi
        obtain ⟨h1, h2⟩ := ht js hm
        rcases List.mem_append.1 hi with hi | hi
        · have := h2 i hi
          rw [List.getElem?_append_left (List.getElem?_eq_some_iff.1 this).1]; exact this
        · simp only [List.mem_singleton] at hi; subst hi
          simp [h1]
    · simp only [hk, if_false]
      intro hm hl i hi
      have := h.multi k' is hm hl i hi
      rw [List.getElem?_append_left (List.getElem?_eq_some_iff.1 this).1]; exact this

theorem insert_get_shift {α : Type} (l : List α) (x : α) (i j : Nat) (hj : j < l.length) (_hi : i ≤ l.length) :
    (l.insertIdx i x)[if i ≤ j then j + 1 else j]? = l[j]? := by
  rw [List.getElem?_insertIdx]
  split
  · rename_i h; rw [if_neg (by omega), if_neg (by omega)]; simp
  · rename_i h; rw [if_pos (by omega)]

theorem WFs.insert {sh : List (Option Str × Bool)} {m : List (Str × List Nat)} {d : List Str} (h : WFs sh m d)
    (k : Str) (tb : Bool) (i : Nat) (hi : i ≤ sh.length)
    (ht : ∀ is, mapGet k m = some is → tb = true ∧ ∀ i ∈ is, sh[i]? = some (some k, true)) :
    WFs (sh.insertIdx i (some k, tb))
      (mapSet k ((mapGet k (shiftFrom i m)).getD [] ++ [i]) (shiftFrom i m)) (dictSet k d) := by
  have hshift : ∀ k' js, mapGet k' m = some js → (∀ j ∈ js, sh[j]? = some (some k', true)) →
      ∀ j ∈ js.map (fun v => if i ≤ v then v + 1 else v), (sh.insertIdx i (some k, tb))[j]? = some (some k', true) := by
    intro k' js _ hjs j hj
    obtain ⟨v, hv, rfl⟩ := List.mem_map.1 hj
    have := hjs v hv
    rw [insert_get_shift _ _ _ _ (List.getElem?_eq_some_iff.1 this).1 hi]; exact this
  refine ⟨?_, dictSet_nodup h.dictNodup, ?_, ?_⟩
  · have := h.idx.insert k i (by simpa using hi)
    have hmi : (sh.insertIdx i (some k, tb)).map (·.1) = (sh.map (·.1)).insertIdx i (some k) := by
      rw [map_insertIdx]
    rw [hmi]; exact this
  · apply dict_mapSet
    intro x
    rw [mapGet_shift, h.dictMem]; simp
  · intro k' is
    rw [mapGet_mapSet]
    by_cases hk : k = k'
    · subst hk
      simp only [if_true, Option.some.injEq]
      rintro rfl hl j hj
      rw [mapGet_shift] at hl hj
      rcases hm : mapGet k m with _ | js
      · rw [hm] at hl; simp at hl
      · rw [hm] at hj
        simp only [Option.map_some, Option.getD_some] at hj
        obtain ⟨h1, h2⟩ := ht js hm
        rcases List.mem_append.1 hj with hj | hj
        · exact hshift k js hm h2 j hj
        · simp only [List.mem_singleton] at hj; subst hj
          rw [List.getElem?_insertIdx_self, if_pos hi, h1]
    · simp only [hk, if_false, mapGet_shift]
      intro hm hl j hj
      obtain ⟨js, h1, h2⟩ := Option.map_eq_some_iff.1 hm
      rw [← h2] at hj hl
      rw [List.length_map] at hl
      exact hshift k' js h1 (h.multi k' js h1 hl) j hj

theorem nullAt_shape (is : List Nat) (b : List Entry) (j : Nat) :
    ((nullAt is b).map Entry.shape)[j]? = if j ∈ is then (b[j]?).map (fun _ => (none, false)) else (b[j]?).map Entry.shape := by
  rw [List.getElem?_map, nullAt_get]
  split
  · rcases b[j]? with _ | e <;> rfl
  · rfl

theorem Cont.WF.remove {c : Cont} (h : c.WF) {k : Str} {is : List Nat} (hk : mapGet k c.map = some is) (p t) :
    (Cont.mk (nullAt is c.body) (mapDel k c.map) (dictDel k c.dict) p t).WF := by
  refine ⟨?_, dictDel_nodup h.dictNodup, dict_mapDel h.dictMem k, ?_⟩
  · rw [shape_names]
    simp only [Cont.body_mk, Cont.map_mk]
    rw [nullAt_names]
    have := h.idx
    rw [shape_names] at this
    exact this.remove hk
  · simp only [Cont.body_mk, Cont.map_mk]
    intro k' is'
    rw [mapGet_mapDel]
    split
    · simp
    · rename_i hne
      intro hm hl i hi
      have h1 := h.multi k' is' hm hl i hi
      rw [nullAt_shape]
      rw [if_neg, ← List.getElem?_map]; exact h1
      intro hi'
      have h2 := h.idx.at hk hi'
      have h3 := h.idx.at hm hi
      rw [h2] at h3; simp at h3; exact hne h3

/-- replace the entry at a key's only remaining position -/
theorem Cont.WF.keepOne {c : Cont} (h : c.WF) {k : Str} {i : Nat} {r : List Nat} (hk : mapGet k c.map = some (i :: r))
    (e : Entry) (he : e.name = some k) (p t) :
    (Cont.mk ((nullAt r c.body).set i e) (mapSet k [i] (mapDel k c.map)) c.dict p t).WF := by
  have hidx := h.idx
  rw [shape_names] at hidx
  have hne : i ∉ r := by
    have := (hidx.ok _ _ hk).2
    rw [List.nodup_cons] at this; exact this.1
  have hati := hidx.at hk (List.mem_cons_self ..)
  have hnames : ((nullAt r c.body).set i e).map Entry.name = noneAt r (c.body.map Entry.name) := by
    rw [List.map_set, nullAt_names, he]
    apply List.ext_getElem?
    intro j
    rw [List.getElem?_set]
    split
    · rename_i hij; subst hij
      have h1 : (noneAt r (c.body.map Entry.name))[i]? = some (some k) := by
        rw [noneAt_get, if_neg hne]; exact hati
      rw [h1, if_pos]
      exact (List.getElem?_eq_some_iff.1 h1).1
    · rfl
  refine ⟨?_, h.dictNodup, ?_, ?_⟩
  · rw [shape_names]
    simp only [Cont.body_mk, Cont.map_mk]
    rw [hnames]
    exact hidx.keepOne hk
  · intro x
    simp only [Cont.map_mk, Cont.dict_mk]
    rw [mapGet_mapSet, h.dictMem x]
    split
    · rename_i hx; subst hx; simp [hk]
    · rename_i hx; rw [mapGet_mapDel, if_neg hx]
  · simp only [Cont.body_mk, Cont.map_mk]
    intro k' is'
    rw [mapGet_mapSet]
    split
    · intro h1 h2; cases h1; simp at h2
    · rename_i hkk
      rw [mapGet_mapDel, if_neg hkk]
      intro hm hl j hj
      have h1 := h.multi k' is' hm hl j hj
      have hjn := hidx.at hm hj
      rw [List.map_set, List.getElem?_set, if_neg, nullAt_shape, if_neg, ← List.getElem?_map]
      · exact h1
      · intro hjr
        have h2 := hidx.at hk (List.mem_cons_of_mem _ hjr)
        rw [h2] at hjn; simp at hjn; exact hkk hjn
      · intro hij; subst hij
        rw [hati] at hjn; simp at hjn; exact hkk hjn

theorem Cont.WF.removeAt {c : Cont} (h : c.WF) {idx : Nat} {c' : Cont} (hr : c.removeAt idx = .ok c') : c'.WF := by
  unfold Cont.removeAt at hr
  rcases hb : c.body[idx]? with _ | e <;> rw [hb] at hr
  · cases hr
  simp only at hr
  rcases hk : e.key with _ | k <;> rw [hk] at hr
  · cases hr
  simp only at hr
  rcases hm : mapGet k.key c.map with _ | is <;> rw [hm] at hr
  · cases hr
  simp only at hr
  have hidx := h.idx
  rw [shape_names] at hidx
  have hname : (c.body.map Entry.name)[idx]? = some (some k.key) := by
    rw [List.getElem?_map, hb]; simp [Entry.name, hk]
  have hmem := hidx.mem hm hname
  split at hr
  · rename_i hl
    cases hr
    refine ⟨?_, h.dictNodup, ?_, ?_⟩
    · rw [shape_names]
      simp only [Cont.body_mk, Cont.map_mk]
      rw [List.map_set]
      exact hidx.dropOne hm hmem hl
    · intro x
      simp only [Cont.map_mk, Cont.dict_mk]
      rw [mapGet_mapSet, h.dictMem x]
      split
      · rename_i hx; subst hx; simp [hm]
      · rfl
    · simp only [Cont.body_mk, Cont.map_mk]
      intro k' is'
      rw [mapGet_mapSet, List.map_set]
      split
      · rename_i hkk; subst hkk
        intro h1 h2 j hj; cases h1
        have hnd := (hidx.ok _ _ hm).2
        rw [hnd.mem_erase_iff] at hj
        rw [List.getElem?_set, if_neg (Ne.symm hj.1)]
        exact h.multi _ is hm hl j hj.2
      · rename_i hkk
        intro hm' hl' j hj
        rw [List.getElem?_set, if_neg]
        · exact h.multi k' is' hm' hl' j hj
        · intro hij; subst hij
          have := hidx.at hm' hj
          rw [hname] at this; simp at this; exact hkk this
  · rename_i hl
    cases hr
    have hone : is = [idx] := by
      match is, hl, hmem with
      | [], _, hmem => simp at hmem
      | [x], _, hmem => simp at hmem; rw [hmem]
      | _ :: _ :: _, hl, _ => simp at hl
    have := h.remove hm c.parsed c.tableKeys
    rw [hone] at this
    exact this

/-! ### shape-preserving changes -/

theorem Item.isTable_setTrivia (v : Item) (t : Trivia) : (v.setTrivia t).isTable = v.isTable := by
  cases v <;> rfl

theorem Item.isAoT_setTrivia (v : Item) (t : Trivia) : (v.setTrivia t).isAoT = v.isAoT := by
  cases v <;> rfl

theorem Item.isTable_invalidate (v : Item) : v.invalidate.isTable = v.isTable := by
  cases v <;> rfl

theorem map_modify_same {α β : Type} (g : α → β) (l : List α) (i : Nat) (f : α → α) (h : ∀ a, g (f a) = g a) :
    (l.modify i f).map g = l.map g := by
  apply List.ext_getElem?
  intro j
  rw [List.getElem?_map, List.getElem?_modify, List.getElem?_map]
  rcases l[j]? with _ | a
  · rfl
  · simp only [Option.map_some]
    split <;> simp [h]

theorem map_set_same {α β : Type} (g : α → β) (l : List α) (i : Nat) (a : α) (h : (l[i]?).map g = some (g a)) :
    (l.set i a).map g = l.map g := by
  rw [List.map_set]
  apply List.ext_getElem?
  intro j
  rw [List.getElem?_set]
  split
  · rename_i hij; subst hij
    rw [List.getElem?_map, h, if_pos]
    rcases hl : l[i]? with _ | x
    · rw [hl] at h; simp at h
    · simpa using (List.getElem?_eq_some_iff.1 hl).1
  · rfl

theorem addTrailNl_shape (i : Nat) (b : List Entry) : (addTrailNl i b).map Entry.shape = b.map Entry.shape := by
  unfold addTrailNl
  apply map_modify_same
  intro e
  split
  · rfl
  · cases e; simp [Item.isTable_setTrivia]

theorem setTriviaAt_shape (i : Nat) (f : Trivia → Trivia) (b : List Entry) :
    (setTriviaAt i f b).map Entry.shape = b.map Entry.shape := by
  unfold setTriviaAt
  apply map_modify_same
  intro e; cases e; simp [Item.isTable_setTrivia]

/-! ### the operations -/

theorem Cont.WF.rawAppend {c : Cont} (h : c.WF) {key : Option SKey} {item : Item}
    (ht : ∀ k, key = some k → (mapGet k.key c.map).isSome = true → item.isTable = true)
    {c' : Cont} (hr : c.rawAppend key item = .ok c') : c'.WF := by
  unfold Cont.rawAppend at hr
  rcases key with _ | k
  · cases hr
    rw [Cont.WF_mk, List.map_append]
    exact h.append_none _
  · simp only at hr
    rcases hm : mapGet k.key c.map with _ | idxs <;> rw [hm] at hr <;> simp only at hr
    · cases hr
      rw [Cont.WF_mk, List.map_append]
      have := h.append_some k.key item.isTable (by intro is his; rw [hm] at his; cases his)
      rw [hm, List.length_map] at this
      exact this
    · rcases hl : (idxs.getLast? >>= fun i => c.body[i]?) with _ | e <;> rw [hl] at hr <;> simp only at hr
      · cases hr
      · split at hr
        · rename_i het
          cases hr
          rw [Cont.WF_mk, List.map_append]
          have := h.append_some k.key item.isTable (by
            intro is his; rw [hm] at his; cases his
            refine ⟨ht k rfl (by rw [hm]; rfl), ?_⟩
            intro i hi
            by_cases hlen : 1 < idxs.length
            · exact h.multi _ _ hm hlen i hi
            · match idxs, hlen, hi, hl with
              | [x], _, hi, hl =>
                simp only [List.mem_singleton] at hi; subst hi
                have hl : c.body[i]? = some e := by simpa using hl
                have hn := h.idx.at hm (List.mem_singleton.2 rfl)
                rw [shape_names, List.getElem?_map, hl] at hn
                rw [List.getElem?_map, hl]
                simp only [Option.map_some, Option.some.injEq] at hn
                simp [Entry.shape, hn, het]
              | _ :: _ :: _, hlen, _, _ => simp at hlen)
          rw [hm, List.length_map] at this
          exact this
        · cases hr

theorem Cont.WF.insertAt {c : Cont} (h : c.WF) {idx : Nat} {k : SKey} {item : Item}
    (ht : ∀ is, mapGet k.key c.map = some is →
      item.isTable = true ∧ ∀ i ∈ is, (c.body.map Entry.shape)[i]? = some (some k.key, true))
    {c' : Cont} (hr : c.insertAt idx k item = .ok c') : c'.WF := by
  unfold Cont.insertAt at hr
  split at hr
  · cases hr
  · rename_i hlt
    cases hr
    have hb : (if (0 < idx && !item.isTableLike) = true then addTrailNl (idx - 1) c.body else c.body).map Entry.shape =
        c.body.map Entry.shape := by
      split
      · exact addTrailNl_shape _ _
      · rfl
    rw [Cont.WF_mk, map_insertIdx, hb]
    have := h.insert k.key item.isTable idx (by simp; omega) ht
    rcases hm : mapGet k.key (shiftFrom idx c.map) with _ | is <;> rw [hm] at this <;> exact this

theorem Cont.WF.remove_ok {c : Cont} (h : c.WF) {k : Str} {c' : Cont} (hr : c.remove k = .ok c') : c'.WF := by
  unfold Cont.remove at hr
  rcases hm : mapGet k c.map with _ | is <;> rw [hm] at hr <;> cases hr
  exact h.remove hm _ _

theorem Cont.WF.appendTail {c : Cont} (h : c.WF) {key : Option SKey} {item : Item}
    (ht : ∀ k, key = some k → ∀ is, mapGet k.key c.map = some is →
      item.isTable = true ∧ ∀ i ∈ is, (c.body.map Entry.shape)[i]? = some (some k.key, true))
    {c' : Cont} (hr : c.appendTail key item = .ok c') : c'.WF := by
  have hraw : ∀ k, key = some k → (mapGet k.key c.map).isSome = true → item.isTable = true := by
    intro k hk hs
    obtain ⟨is, his⟩ := Option.isSome_iff_exists.1 hs
    exact (ht k hk is his).1
  unfold Cont.appendTail at hr
  rcases key with _ | k
  · exact h.rawAppend hraw hr
  · simp only at hr
    split at hr
    · split at hr
      · exact h.insertAt (ht k rfl) hr
      · refine Cont.WF.rawAppend (h.of_shape (addTrailNl_shape _ _) _ _) hraw hr
    · exact h.rawAppend hraw hr

theorem Cont.lastEntry_spec {c : Cont} (h : c.WF) {k : Str} {i : Nat} {e : Entry} (hl : c.lastEntry k = some (i, e)) :
    ∃ is, mapGet k c.map = some is ∧ i ∈ is ∧ c.body[i]? = some e ∧ e.name = some k ∧
      (e.v.isTable = true → ∀ j ∈ is, (c.body.map Entry.shape)[j]? = some (some k, true)) ∧
      (e.v.isTable = false → is = [i]) := by
  unfold Cont.lastEntry at hl
  rcases hm : mapGet k c.map with _ | is <;> rw [hm] at hl <;> simp only at hl
  · cases hl
  rcases hg : is.getLast? with _ | j <;> rw [hg] at hl <;> simp only at hl
  · cases hl
  rcases hb : c.body[j]? with _ | e' <;> rw [hb] at hl <;> simp at hl
  obtain ⟨rfl, rfl⟩ := hl
  have hmem : j ∈ is := List.mem_of_getLast? hg
  have hn := h.idx.at hm hmem
  rw [shape_names, List.getElem?_map, hb] at hn
  simp only [Option.map_some, Option.some.injEq] at hn
  refine ⟨is, rfl, hmem, hb, hn, ?_, ?_⟩
  · intro het i hi
    by_cases hlen : 1 < is.length
    · exact h.multi _ _ hm hlen i hi
    · match is, hlen, hi, hmem with
      | [x], _, hi, hmem =>
        simp only [List.mem_singleton] at hi hmem; subst hi; subst hmem
        rw [List.getElem?_map, hb]; simp [Entry.shape, hn, het]
      | _ :: _ :: _, hlen, _, _ => simp at hlen
  · intro hnt
    by_cases hlen : 1 < is.length
    · have := h.multi _ _ hm hlen j hmem
      rw [List.getElem?_map, hb] at this
      simp [Entry.shape, hnt] at this
    · match is, hlen, hmem with
      | [x], _, hmem => simp only [List.mem_singleton] at hmem; rw [hmem]
      | _ :: _ :: _, hlen, _ => simp at hlen

theorem Cont.has_false {n : Nat} {c : Cont} {k : Str} (h : Cont.has n c k = .ok false) : mapGet k c.map = none := by
  cases n with
  | zero => simp [Cont.has] at h
  | succ n =>
    simp only [Cont.has] at h
    rcases hm : mapGet k c.map with _ | is
    · rfl
    · rw [hm] at h
      match is, h with
      | [], h => rcases hp : Cont.mkProxy n c [] with _ | p <;> simp [hp, Except.map] at h
      | [_], h => simp at h
      | a :: b :: r, h => rcases hp : Cont.mkProxy n c (a :: b :: r) with _ | p <;> simp [hp, Except.map] at h

theorem Cont.has_true {n : Nat} {c : Cont} {k : Str} (h : Cont.has n c k = .ok true) :
    (mapGet k c.map).isSome = true := by
  cases n with
  | zero => simp [Cont.has] at h
  | succ n =>
    simp only [Cont.has] at h
    rcases hm : mapGet k c.map with _ | is
    · rw [hm] at h; simp at h
    · rfl

theorem Item.isTable_of_prepare {c : Cont} {key : Option SKey} {item item' : Item} (h : c.prepare key item = .ok item') :
    item'.isTable = item.isTable ∧ item'.isAoT = item.isAoT := by
  unfold Cont.prepare at h
  have hname : ∀ k : SKey, (item.setName k.key).isTable = item.isTable ∧ (item.setName k.key).isAoT = item.isAoT := by
    intro k; rcases item with _ | _ | _ | _ | _ | _ | _ | _ | _ | _ | _ | ⟨⟨⟩⟩ | _ | _ <;> exact ⟨rfl, rfl⟩
  have key0 : ∀ o : Option Item, (∀ i, o = some i → i.isTable = item.isTable ∧ i.isAoT = item.isAoT) →
      (match o with
        | none => (.error .attributeError : Except Err Item)
        | some (.table tb) =>
          let tb := if c.parsed then tb else tb.invalidate
          if !c.body.isEmpty && !(c.parsed || !tb.trivia.indent.isEmpty || c.prevWs) && !isDottedKey key then
            .ok (.table (tb.setTrivia { tb.trivia with indent := [10] }))
          else .ok (.table tb)
        | some (.aot ts t n p) =>
          if !c.body.isEmpty && !c.parsed then
            match invalidateAll ts with
            | [] => .ok (.aot [] t n p)
            | h :: r =>
              if hasNl h.trivia.indent || c.prevWs then .ok (.aot (h :: r) t n p)
              else .ok (.aot (h.setTrivia { h.trivia with indent := 10 :: h.trivia.indent } :: r) t n p)
          else .ok (.aot ts t n p)
        | some i => .ok i) = .ok item' → item'.isTable = item.isTable ∧ item'.isAoT = item.isAoT := by
    intro o ho hh
    rcases o with _ | i
    · cases hh
    · have hi := ho i rfl
      rw [← hi.1, ← hi.2]
      rcases i with _ | _ | _ | _ | _ | _ | _ | _ | _ | _ | _ | tb | ⟨ts, t, n, p⟩ | _
      case table =>
        simp only at hh
        split at hh <;> split at hh <;> cases hh <;> exact ⟨rfl, rfl⟩
      case aot =>
        simp only at hh
        split at hh
        · rcases hia : invalidateAll ts with _ | ⟨a, r⟩ <;> rw [hia] at hh
          · cases hh; exact ⟨rfl, rfl⟩
          · simp only at hh
            split at hh <;> cases hh <;> exact ⟨rfl, rfl⟩
        · cases hh; exact ⟨rfl, rfl⟩
      all_goals (cases hh; exact ⟨rfl, rfl⟩)
  refine key0 _ ?_ h
  intro i hi
  split at hi
  · rcases key with _ | k
    · cases hi
    · simp only [Option.map_some, Option.some.injEq] at hi
      subst hi; exact hname k
  · cases hi; exact ⟨rfl, rfl⟩

end Tomlkit
