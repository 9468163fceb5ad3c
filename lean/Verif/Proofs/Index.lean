import Verif.Model.Edit
/-!
# The index of a container: `_map` against the keys of `_body`
-/
namespace Tomlkit

/-- the name under which an entry is stored -/
def Entry.name (e : Entry) : Option Str := e.key.map SKey.key

@[simp] theorem Entry.name_mk (k : Option SKey) (v : Item) : (Entry.mk k v).name = k.map SKey.key := rfl
@[simp] theorem Entry.name_null : Entry.nullEntry.name = none := rfl

/-! ### the association list -/

theorem mapGet_mapSet (k k' : Str) (v : List Nat) (m : List (Str × List Nat)) :
    mapGet k (mapSet k' v m) = if k' = k then some v else mapGet k m := by
  induction m with
  | nil => simp only [mapSet, mapGet, beq_iff_eq]
  | cons p r ih =>
    obtain ⟨q, w⟩ := p
    simp only [mapSet]
    by_cases hq : q = k'
    · subst hq; simp only [beq_self_eq_true, if_true, mapGet, beq_iff_eq]
      by_cases h : q = k <;> simp [h]
    · simp only [beq_iff_eq, hq, if_false, mapGet, ih]
      by_cases h : q = k
      · subst h; simp [Ne.symm hq]
      · simp [h]

theorem mapGet_mapDel (k k' : Str) (m : List (Str × List Nat)) :
    mapGet k (mapDel k' m) = if k' = k then none else mapGet k m := by
  induction m with
  | nil => simp [mapDel, mapGet]
  | cons p r ih =>
    obtain ⟨q, w⟩ := p
    unfold mapDel at ih ⊢
    by_cases hq : q = k'
    · subst hq
      simp only [List.filter_cons, beq_self_eq_true, Bool.not_true, Bool.false_eq_true, if_false, ih, mapGet,
        beq_iff_eq]
      by_cases h : q = k <;> simp [h]
    · have hb : (!(q == k')) = true := by simp [hq]
      simp only [List.filter_cons, hb, if_true, mapGet, beq_iff_eq, ih]
      by_cases h : q = k
      · subst h; simp [Ne.symm hq]
      · simp [h]

theorem mapGet_map (f : List Nat → List Nat) (k : Str) (m : List (Str × List Nat)) :
    mapGet k (m.map fun p => (p.1, f p.2)) = (mapGet k m).map f := by
  induction m with
  | nil => rfl
  | cons p r ih =>
    simp only [List.map_cons, mapGet, ih]
    by_cases h : p.1 = k <;> simp [h]

theorem mapGet_shift (i : Nat) (k : Str) (m : List (Str × List Nat)) :
    mapGet k (shiftFrom i m) = (mapGet k m).map (fun l => l.map fun v => if i ≤ v then v + 1 else v) :=
  mapGet_map _ k m

theorem mapGet_isSome (k : Str) (m : List (Str × List Nat)) : (mapGet k m).isSome = true ↔ k ∈ m.map (·.1) := by
  induction m with
  | nil => simp [mapGet]
  | cons p r ih =>
    simp only [mapGet, List.map_cons, List.mem_cons]
    by_cases h : p.1 = k
    · simp [h]
    · simp only [beq_iff_eq, h, if_false, ih]
      constructor
      · exact Or.inr
      · rintro (h' | h')
        · exact absurd h'.symm h
        · exact h'

theorem mapSet_keys (k : Str) (v : List Nat) (m : List (Str × List Nat)) :
    (mapSet k v m).map (·.1) = if k ∈ m.map (·.1) then m.map (·.1) else m.map (·.1) ++ [k] := by
  induction m with
  | nil => simp [mapSet]
  | cons p r ih =>
    simp only [mapSet, List.map_cons, List.mem_cons]
    by_cases h : p.1 = k
    · simp [h]
    · simp only [beq_iff_eq, h, if_false, List.map_cons, ih]
      by_cases hm : k ∈ r.map (·.1)
      · simp [hm]
      · simp [hm, Ne.symm h]

theorem mapSet_nodup {k : Str} {v : List Nat} {m : List (Str × List Nat)} (h : (m.map (·.1)).Nodup) :
    ((mapSet k v m).map (·.1)).Nodup := by
  rw [mapSet_keys]
  split
  · exact h
  · rename_i hk
    rw [List.nodup_append]
    exact ⟨h, by simp, by
      intro a ha b hb; simp only [List.mem_singleton] at hb; subst hb; intro e; subst e; exact hk ha⟩

theorem mapDel_nodup {k : Str} {m : List (Str × List Nat)} (h : (m.map (·.1)).Nodup) :
    ((mapDel k m).map (·.1)).Nodup := by
  unfold mapDel
  exact h.sublist (List.Sublist.map _ List.filter_sublist)

theorem shift_keys (i : Nat) (m : List (Str × List Nat)) : (shiftFrom i m).map (·.1) = m.map (·.1) := by
  unfold shiftFrom; rw [List.map_map]; rfl

/-! ### the index -/

/-- The index `m` describes the list of names `ks`: the positions of a name are exactly the ones it is stored at. -/
structure Idx (ks : List (Option Str)) (m : List (Str × List Nat)) : Prop where
  nodup : (m.map (·.1)).Nodup
  pos : ∀ k i, ks[i]? = some (some k) ↔ ∃ is, mapGet k m = some is ∧ i ∈ is
  ok : ∀ k is, mapGet k m = some is → is ≠ [] ∧ is.Nodup

theorem Idx.empty : Idx [] [] := by
  refine ⟨by simp, ?_, ?_⟩ <;> simp [mapGet]

theorem Idx.lt {ks : List (Option Str)} {m : List (Str × List Nat)} (h : Idx ks m) {k : Str} {is : List Nat} {i : Nat}
    (hk : mapGet k m = some is) (hi : i ∈ is) : i < ks.length := by
  have := (h.pos k i).2 ⟨is, hk, hi⟩
  exact (List.getElem?_eq_some_iff.1 this).1

theorem Idx.at {ks : List (Option Str)} {m : List (Str × List Nat)} (h : Idx ks m) {k : Str} {is : List Nat} {i : Nat}
    (hk : mapGet k m = some is) (hi : i ∈ is) : ks[i]? = some (some k) := (h.pos k i).2 ⟨is, hk, hi⟩

theorem Idx.mem {ks : List (Option Str)} {m : List (Str × List Nat)} (h : Idx ks m) {k : Str} {is : List Nat} {i : Nat}
    (hk : mapGet k m = some is) (hi : ks[i]? = some (some k)) : i ∈ is := by
  obtain ⟨is', h1, h2⟩ := (h.pos k i).1 hi
  rw [hk] at h1; cases h1; exact h2

/-- a key is in the index exactly when it is in the body -/
theorem Idx.isSome {ks : List (Option Str)} {m : List (Str × List Nat)} (h : Idx ks m) (k : Str) :
    (mapGet k m).isSome = true ↔ some k ∈ ks := by
  constructor
  · intro hs
    obtain ⟨is, hk⟩ := Option.isSome_iff_exists.1 hs
    obtain ⟨hne, -⟩ := h.ok k is hk
    obtain ⟨i, r, rfl⟩ := List.exists_cons_of_ne_nil hne
    exact List.mem_of_getElem? (h.at hk (List.mem_cons_self ..))
  · intro hm
    obtain ⟨i, hi⟩ := List.getElem?_of_mem hm
    obtain ⟨is, hk, -⟩ := (h.pos k i).1 hi
    rw [hk]; rfl

theorem Idx.append_none {ks : List (Option Str)} {m : List (Str × List Nat)} (h : Idx ks m) : Idx (ks ++ [none]) m := by
  refine ⟨h.nodup, ?_, h.ok⟩
  intro k i
  rw [← h.pos k i, List.getElem?_append]
  split
  · rfl
  · rename_i hi
    rw [List.getElem?_eq_none (by omega : ks.length ≤ i)]
    have : ∀ j : Nat, ([none] : List (Option Str))[j]? ≠ some (some k) := by
      intro j; cases j <;> simp
    simp [this]

theorem Idx.append_some {ks : List (Option Str)} {m : List (Str × List Nat)} (h : Idx ks m) (k : Str) :
    Idx (ks ++ [some k]) (mapSet k ((mapGet k m).getD [] ++ [ks.length]) m) := by
  refine ⟨mapSet_nodup h.nodup, ?_, ?_⟩
  · intro k' i
    rw [mapGet_mapSet, List.getElem?_append]
    by_cases hk : k = k'
    · subst hk
      simp only [if_true, Option.some.injEq, exists_eq_left', List.mem_append, List.mem_singleton]
      split
      · rename_i hi
        rw [h.pos]
        constructor
        · rintro ⟨is, h1, h2⟩; left; rw [h1]; exact h2
        · rintro (h1 | h1)
          · rcases hm : mapGet k m with _ | is
            · rw [hm] at h1; simp at h1
            · rw [hm] at h1; exact ⟨is, rfl, h1⟩
          · omega
      · rename_i hi
        constructor
        · intro h1
          right
          rcases hj : i - ks.length with _ | j
          · omega
          · rw [hj] at h1; simp at h1
        · rintro (h1 | h1)
          · rcases hm : mapGet k m with _ | is
            · rw [hm] at h1; simp at h1
            · rw [hm] at h1; exact absurd (h.lt hm h1) hi
          · subst h1; simp
    · simp only [hk, if_false]
      rw [← h.pos k' i]
      split
      · rfl
      · rename_i hi
        rw [List.getElem?_eq_none (by omega : ks.length ≤ i)]
        have : ∀ j : Nat, ([some k] : List (Option Str))[j]? ≠ some (some k') := by
          intro j; cases j <;> simp [hk]
        simp [this]
  · intro k' is
    rw [mapGet_mapSet]
    split
    · intro he; cases he
      refine ⟨by simp, ?_⟩
      rcases hm : mapGet k m with _ | is
      · simp
      · simp only [Option.getD_some]
        rw [List.nodup_append]
        exact ⟨(h.ok k is hm).2, by simp, by
          intro a ha b hb; simp only [List.mem_singleton] at hb; subst hb
          have := h.lt hm ha; omega⟩
    · exact h.ok k' is

theorem shift_inj (i : Nat) : ∀ a b : Nat, (if i ≤ a then a + 1 else a) = (if i ≤ b then b + 1 else b) → a = b := by
  intro a b; split <;> split <;> omega

theorem Idx.insert {ks : List (Option Str)} {m : List (Str × List Nat)} (h : Idx ks m) (k : Str) (i : Nat)
    (hi : i ≤ ks.length) :
    Idx (ks.insertIdx i (some k))
      (mapSet k ((mapGet k (shiftFrom i m)).getD [] ++ [i]) (shiftFrom i m)) := by
  have hsh : ∀ k' j, (ks.insertIdx i (some k))[j]? = some (some k') ↔
      (k' = k ∧ j = i) ∨ ∃ is, mapGet k' (shiftFrom i m) = some is ∧ j ∈ is := by
    intro k' j
    rw [List.getElem?_insertIdx, mapGet_shift]
    have key : ∀ j', ks[j']? = some (some k') ↔ ∃ is, mapGet k' m = some is ∧ j' ∈ is := h.pos k'
    have conv : (∃ is, (mapGet k' m).map (fun l => l.map fun v => if i ≤ v then v + 1 else v) = some is ∧ j ∈ is) ↔
        ∃ is, mapGet k' m = some is ∧ ∃ v ∈ is, (if i ≤ v then v + 1 else v) = j := by
      rcases mapGet k' m with _ | is
      · simp
      · simp
    rw [conv]
    split
    · rename_i hlt
      rw [key]
      constructor
      · rintro ⟨is, h1, h2⟩
        exact Or.inr ⟨is, h1, j, h2, by rw [if_neg (by omega)]⟩
      · rintro (⟨_, h2⟩ | ⟨is, h1, v, hv, hj⟩)
        · omega
        · refine ⟨is, h1, ?_⟩
          split at hj
          · omega
          · subst hj; exact hv
    · split
      · rename_i heq
        subst heq
        rw [if_pos hi]
        constructor
        · intro he
          simp only [Option.some.injEq] at he
          exact Or.inl ⟨he.symm, rfl⟩
        · rintro (⟨h1, _⟩ | ⟨is, h1, v, hv, hj⟩)
          · rw [h1]
          · split at hj <;> omega
      · rename_i hnlt hne
        rw [key]
        constructor
        · rintro ⟨is, h1, h2⟩
          exact Or.inr ⟨is, h1, j - 1, h2, by rw [if_pos (by omega)]; omega⟩
        · rintro (⟨_, h2⟩ | ⟨is, h1, v, hv, hj⟩)
          · omega
          · refine ⟨is, h1, ?_⟩
            split at hj
            · subst hj; exact hv
            · omega
  have hnd : ∀ k' is, mapGet k' (shiftFrom i m) = some is → is ≠ [] ∧ is.Nodup ∧ i ∉ is := by
    intro k' is hm
    rw [mapGet_shift] at hm
    obtain ⟨js, h1, h2⟩ := Option.map_eq_some_iff.1 hm
    obtain ⟨g1, g2⟩ := h.ok k' js h1
    refine ⟨?_, ?_, ?_⟩
    · intro he; rw [he] at h2; exact g1 (List.map_eq_nil_iff.1 h2)
    · rw [← h2]
      exact List.Pairwise.map _ (fun a b hab he => hab (shift_inj i a b he)) g2
    · rw [← h2]
      intro hmem
      obtain ⟨v, _, hv⟩ := List.mem_map.1 hmem
      split at hv <;> omega
  refine ⟨mapSet_nodup (by rw [shift_keys]; exact h.nodup), ?_, ?_⟩
  · intro k' j
    rw [hsh, mapGet_mapSet]
    by_cases hk : k = k'
    · subst hk
      simp only [true_and, if_true, Option.some.injEq, exists_eq_left', List.mem_append, List.mem_singleton]
      rcases hm : mapGet k (shiftFrom i m) with _ | is
      · simp
      · simp [or_comm]
    · simp [hk, Ne.symm hk]
  · intro k' is
    rw [mapGet_mapSet]
    split
    · intro he; cases he
      refine ⟨by simp, ?_⟩
      rcases hm : mapGet k (shiftFrom i m) with _ | is
      · simp
      · simp only [Option.getD_some]
        obtain ⟨_, g2, g3⟩ := hnd _ _ hm
        rw [List.nodup_append]
        exact ⟨g2, by simp, by
          intro a ha b hb; simp only [List.mem_singleton] at hb; subst hb
          intro e; subst e; exact g3 ha⟩
    · intro hm; exact ⟨(hnd k' is hm).1, (hnd k' is hm).2.1⟩

/-! ### emptied slots -/

/-- `none` at the given positions -/
def noneAt (is : List Nat) (ks : List (Option Str)) : List (Option Str) := is.foldl (fun b i => b.set i none) ks

theorem noneAt_get (is : List Nat) (ks : List (Option Str)) (j : Nat) :
    (noneAt is ks)[j]? = if j ∈ is then (ks[j]?).map (fun _ => none) else ks[j]? := by
  induction is generalizing ks with
  | nil => simp [noneAt]
  | cons i r ih =>
    have hu : noneAt (i :: r) ks = noneAt r (ks.set i none) := rfl
    rw [hu, ih, List.getElem?_set]
    by_cases hij : i = j
    · subst hij
      by_cases hm : i ∈ r
      · simp only [hm, if_true, List.mem_cons, or_true]
        split
        · rename_i hl; rw [List.getElem?_eq_getElem hl]; rfl
        · rename_i hl; rw [List.getElem?_eq_none (by omega)]
      · simp only [hm, if_false, List.mem_cons, true_or, if_true]
        split
        · rename_i hl; rw [List.getElem?_eq_getElem hl]; rfl
        · rename_i hl; rw [List.getElem?_eq_none (by omega)]; rfl
    · simp only [hij, if_false, List.mem_cons, Ne.symm hij, false_or]

theorem noneAt_length (is : List Nat) (ks : List (Option Str)) : (noneAt is ks).length = ks.length := by
  induction is generalizing ks with
  | nil => rfl
  | cons i r ih =>
    have hu : noneAt (i :: r) ks = noneAt r (ks.set i none) := rfl
    rw [hu, ih, List.length_set]

theorem nullAt_names (is : List Nat) (b : List Entry) : (nullAt is b).map Entry.name = noneAt is (b.map Entry.name) := by
  induction is generalizing b with
  | nil => rfl
  | cons i r ih =>
    have h1 : nullAt (i :: r) b = nullAt r (b.set i Entry.nullEntry) := rfl
    have h2 : noneAt (i :: r) (b.map Entry.name) = noneAt r ((b.map Entry.name).set i none) := rfl
    rw [h1, h2, ih, List.map_set]; rfl

theorem nullAt_length (is : List Nat) (b : List Entry) : (nullAt is b).length = b.length := by
  have := congrArg List.length (nullAt_names is b)
  simpa [noneAt_length] using this

theorem nullAt_get (is : List Nat) (b : List Entry) (j : Nat) :
    (nullAt is b)[j]? = if j ∈ is then (b[j]?).map (fun _ => Entry.nullEntry) else b[j]? := by
  induction is generalizing b with
  | nil => simp [nullAt]
  | cons i r ih =>
    have hu : nullAt (i :: r) b = nullAt r (b.set i Entry.nullEntry) := rfl
    rw [hu, ih, List.getElem?_set]
    by_cases hij : i = j
    · subst hij
      by_cases hm : i ∈ r
      · simp only [hm, if_true, List.mem_cons, or_true]
        split
        · rename_i hl; rw [List.getElem?_eq_getElem hl]; rfl
        · rename_i hl; rw [List.getElem?_eq_none (by omega)]
      · simp only [hm, if_false, List.mem_cons, true_or, if_true]
        split
        · rename_i hl; rw [List.getElem?_eq_getElem hl]; rfl
        · rename_i hl; rw [List.getElem?_eq_none (by omega)]; rfl
    · simp only [hij, if_false, List.mem_cons, Ne.symm hij, false_or]

theorem Idx.remove {ks : List (Option Str)} {m : List (Str × List Nat)} (h : Idx ks m) {k : Str} {is : List Nat}
    (hk : mapGet k m = some is) : Idx (noneAt is ks) (mapDel k m) := by
  refine ⟨mapDel_nodup h.nodup, ?_, ?_⟩
  · intro k' i
    rw [noneAt_get, mapGet_mapDel]
    by_cases hkk : k = k'
    · subst hkk
      simp only [if_true, reduceCtorEq, false_and, exists_false, iff_false]
      split
      · rcases ks[i]? with _ | x <;> simp
      · rename_i hn; intro he; exact hn (h.mem hk he)
    · simp only [hkk, if_false]
      rw [← h.pos k' i]
      split
      · rename_i hi
        have := h.at hk hi
        rw [this]; simp [hkk]
      · rfl
  · intro k' is'
    rw [mapGet_mapDel]
    split
    · simp
    · exact h.ok k' is'

/-- keep only one position of a key, possibly moving its index entry -/
theorem Idx.keepOne {ks : List (Option Str)} {m : List (Str × List Nat)} (h : Idx ks m) {k : Str} {i : Nat}
    {r : List Nat} (hk : mapGet k m = some (i :: r)) :
    Idx (noneAt r ks) (mapSet k [i] (mapDel k m)) := by
  refine ⟨mapSet_nodup (mapDel_nodup h.nodup), ?_, ?_⟩
  · intro k' j
    rw [noneAt_get, mapGet_mapSet]
    by_cases hkk : k = k'
    · subst hkk
      simp only [if_true, Option.some.injEq, exists_eq_left', List.mem_singleton]
      have hnd := (h.ok _ _ hk).2
      rw [List.nodup_cons] at hnd
      split
      · rename_i hj
        constructor
        · rcases ks[j]? with _ | x <;> simp
        · intro he; subst he; exact absurd hj hnd.1
      · rename_i hj
        constructor
        · intro he
          have := h.mem hk he
          rcases List.mem_cons.1 this with h1 | h1
          · exact h1
          · exact absurd h1 hj
        · intro he; subst he; exact h.at hk (List.mem_cons_self ..)
    · simp only [hkk, if_false, mapGet_mapDel]
      rw [← h.pos k' j]
      split
      · rename_i hj
        have := h.at hk (List.mem_cons_of_mem _ hj)
        rw [this]; simp [hkk]
      · rfl
  · intro k' is'
    rw [mapGet_mapSet]
    split
    · intro he; cases he; simp
    · rw [mapGet_mapDel]
      split
      · simp
      · exact h.ok k' is'

/-- drop one of several positions of a key -/
theorem Idx.dropOne {ks : List (Option Str)} {m : List (Str × List Nat)} (h : Idx ks m) {k : Str} {i : Nat}
    {is : List Nat} (hk : mapGet k m = some is) (hi : i ∈ is) (hl : 1 < is.length) :
    Idx (ks.set i none) (mapSet k (is.erase i) m) := by
  have hnd := (h.ok _ _ hk).2
  refine ⟨mapSet_nodup h.nodup, ?_, ?_⟩
  · intro k' j
    rw [List.getElem?_set, mapGet_mapSet]
    by_cases hkk : k = k'
    · subst hkk
      simp only [if_true, Option.some.injEq, exists_eq_left']
      rw [hnd.mem_erase_iff]
      by_cases hij : i = j
      · subst hij
        rw [if_pos rfl]; split <;> simp
      · simp only [hij, if_false]
        constructor
        · intro he; exact ⟨Ne.symm hij, h.mem hk he⟩
        · rintro ⟨_, h2⟩; exact h.at hk h2
    · simp only [hkk, if_false]
      rw [← h.pos k' j]
      by_cases hij : i = j
      · subst hij
        have := h.at hk hi
        rw [this]
        rw [if_pos rfl]; split <;> simp [hkk]
      · simp [hij]
  · intro k' is'
    rw [mapGet_mapSet]
    split
    · intro he; cases he
      refine ⟨?_, hnd.erase i⟩
      intro he
      have := List.length_erase_of_mem hi
      rw [he] at this; simp at this; omega
    · exact h.ok k' is'

/-! ### the keys of the underlying dict -/

theorem mem_dictSet (k x : Str) (d : List Str) : x ∈ dictSet k d ↔ x = k ∨ x ∈ d := by
  unfold dictSet
  split
  · rename_i h
    have h : k ∈ d := by simpa using h
    constructor
    · exact Or.inr
    · rintro (h1 | h1)
      · subst h1; exact h
      · exact h1
  · simp [or_comm]

theorem dictSet_nodup {k : Str} {d : List Str} (h : d.Nodup) : (dictSet k d).Nodup := by
  unfold dictSet
  split
  · exact h
  · rename_i hk
    have hk : k ∉ d := by simpa using hk
    rw [List.nodup_append]
    exact ⟨h, by simp, by
      intro a ha b hb; simp only [List.mem_singleton] at hb; subst hb; intro e; subst e; exact hk ha⟩

theorem mem_dictDel (k x : Str) (d : List Str) : x ∈ dictDel k d ↔ x ≠ k ∧ x ∈ d := by
  unfold dictDel
  simp [and_comm]

theorem dictDel_nodup {k : Str} {d : List Str} (h : d.Nodup) : (dictDel k d).Nodup := h.sublist List.filter_sublist

end Tomlkit
