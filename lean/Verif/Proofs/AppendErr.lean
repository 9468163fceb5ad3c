import Verif.Proofs.Sizes
/-!
# Appending while parsing: which exceptions are possible, and that the fuel suffices
-/
namespace Tomlkit

/-- some entry with a key is a table -/
def hasTable (b : List Entry) : Prop := ∃ k, (some k, true) ∈ b.map Entry.shape

/-! ### the order of the keys -/

/-- the keys in the order of their first occurrence -/
def dictOfNames (ks : List (Option Str)) (d : List Str) : List Str :=
  ks.foldl (fun d k => match k with | some k => dictSet k d | none => d) d

theorem dictOfBody_names (b : List Entry) : dictOfBody b = dictOfNames (b.map Entry.name) [] := by
  unfold dictOfBody dictOfNames
  rw [List.foldl_map]
  congr 1
  funext d e
  cases e with
  | mk k v => cases k <;> rfl

theorem dictOfNames_append (a b : List (Option Str)) (d : List Str) : dictOfNames (a ++ b) d = dictOfNames b (dictOfNames a d) := by
  unfold dictOfNames; rw [List.foldl_append]

theorem dictOfNames_none (r : List (Option Str)) (d : List Str) : dictOfNames (none :: r) d = dictOfNames r d := rfl
theorem dictOfNames_some (k : Str) (r : List (Option Str)) (d : List Str) : dictOfNames (some k :: r) d = dictOfNames r (dictSet k d) := rfl

theorem dictOfNames_mem {k : Str} : ∀ {a : List (Option Str)} {d : List Str}, some k ∈ a ∨ k ∈ d → k ∈ dictOfNames a d
  | [], _, h => by
    rcases h with h | h
    · cases h
    · exact h
  | none :: r, d, h => by
    rw [dictOfNames_none]
    exact dictOfNames_mem (h.imp (fun h => by simpa using h) id)
  | some q :: r, d, h => by
    rw [dictOfNames_some]
    refine dictOfNames_mem ?_
    rcases h with h | h
    · rcases List.mem_cons.1 h with h | h
      · cases h; right; rw [mem_dictSet]; simp
      · exact .inl h
    · right
      rw [mem_dictSet]; simp [h]

/-- a later occurrence does not matter -/
theorem dictOfNames_set {k : Str} {ks : List (Option Str)} {i j : Nat} (hij : i < j) (hi : ks[i]? = some (some k)) (hj : ks[j]? = some (some k))
    (d : List Str) : dictOfNames (ks.set j none) d = dictOfNames ks d := by
  obtain ⟨hlt, hget⟩ := List.getElem?_eq_some_iff.1 hj
  have h1 : ks = ks.take j ++ some k :: ks.drop (j + 1) := by
    conv => lhs; rw [← List.take_append_drop j ks, List.drop_eq_getElem_cons hlt, hget]
  have h2 : ks.set j none = ks.take j ++ none :: ks.drop (j + 1) := by
    rw [List.set_eq_take_append_cons_drop, if_pos hlt]
  have hm : k ∈ dictOfNames (ks.take j) d := by
    refine dictOfNames_mem (.inl ?_)
    have : (ks.take j)[i]? = some (some k) := by rw [List.getElem?_take_of_lt hij]; exact hi
    exact List.mem_of_getElem? this
  rw [h2]
  conv => rhs; rw [h1]
  rw [dictOfNames_append, dictOfNames_append, dictOfNames_none, dictOfNames_some]
  have : dictSet k (dictOfNames (ks.take j) d) = dictOfNames (ks.take j) d := by
    unfold dictSet; rw [if_pos (by simpa using hm)]
  rw [this]

theorem name_nullEntry : Entry.name Entry.nullEntry = none := rfl

theorem dictOfBody_nullAt {k : Str} {i : Nat} : ∀ {is : List Nat} {b : List Entry}, (b.map Entry.name)[i]? = some (some k) →
    (∀ j ∈ is, i < j ∧ (b.map Entry.name)[j]? = some (some k)) → is.Nodup →
    dictOfBody (nullAt is b) = dictOfBody b ∧ ((nullAt is b).map Entry.name)[i]? = some (some k)
  | [], _, hi, _, _ => ⟨rfl, hi⟩
  | j :: r, b, hi, h, hnd => by
    show dictOfBody (nullAt r (b.set j Entry.nullEntry)) = _ ∧ ((nullAt r (b.set j Entry.nullEntry)).map Entry.name)[i]? = _
    obtain ⟨hj1, hj2⟩ := h j (List.mem_cons_self ..)
    rw [List.nodup_cons] at hnd
    have e1 : dictOfBody (b.set j Entry.nullEntry) = dictOfBody b := by
      rw [dictOfBody_names, dictOfBody_names, List.map_set, name_nullEntry]
      exact dictOfNames_set hj1 hi hj2 []
    have hi' : ((b.set j Entry.nullEntry).map Entry.name)[i]? = some (some k) := by
      rw [List.map_set, List.getElem?_set, if_neg (by omega)]; exact hi
    obtain ⟨q1, q2⟩ := dictOfBody_nullAt (is := r) hi' (fun x hx => by
      obtain ⟨g1, g2⟩ := h x (List.mem_cons_of_mem _ hx)
      refine ⟨g1, ?_⟩
      rw [List.map_set, List.getElem?_set, if_neg (by rintro rfl; exact hnd.1 hx)]; exact g2) hnd.2
    exact ⟨q1.trans e1, q2⟩

/-- the state of a container while parsing -/
structure PW (c : Cont) : Prop where
  wf : c.WF
  parsed : c.parsed = true
  keys : hasTable c.body → c.tableKeys ≠ []
  order : c.dict = dictOfBody c.body
  sorted : ∀ k is, mapGet k c.map = some is → is.Pairwise (· < ·)

theorem dictOfBody_shape {b b' : List Entry} (h : b'.map Entry.shape = b.map Entry.shape) : dictOfBody b' = dictOfBody b := by
  rw [dictOfBody_names, dictOfBody_names, ← shape_names, ← shape_names, h]

/-- what `_raw_append` does to the other fields -/
theorem rawAppend_fields {c c' : Cont} {key : Option SKey} {item : Item} (hr : c.rawAppend key item = .ok c') :
    c'.parsed = c.parsed ∧ c'.tableKeys = c.tableKeys ++ (match key with
      | some k => if item.isTable = true then [k.key] else []
      | none => []) := by
  unfold Cont.rawAppend at hr
  rcases key with _ | k
  · cases hr; simp
  · dsimp only at hr ⊢
    have htk : (if item.isTable = true then c.tableKeys ++ [k.key] else c.tableKeys) =
        c.tableKeys ++ (if item.isTable = true then [k.key] else []) := by split <;> simp
    rw [htk] at hr
    split at hr
    · split at hr
      · split at hr <;> cases hr
        exact ⟨rfl, rfl⟩
      · cases hr
    · cases hr; exact ⟨rfl, rfl⟩

theorem rawAppend_PW {c c' : Cont} (h : PW c) (hw : c'.WF) {key : Option SKey} {item : Item}
    (hr : c.rawAppend key item = .ok c') : PW c' := by
  obtain ⟨h1, h2⟩ := rawAppend_fields hr
  have hb := rawAppend_body hr
  refine ⟨hw, by rw [h1]; exact h.parsed, ?_, ?_, ?_⟩
  case refine_2 =>
    rw [hb, dictOfBody_names, List.map_append, dictOfNames_append, ← dictOfBody_names, ← h.order]
    unfold Cont.rawAppend at hr
    rcases key with _ | k <;> dsimp only at hr
    · cases hr; rfl
    · split at hr
      · split at hr
        · split at hr <;> cases hr
          rfl
        · cases hr
      · cases hr; rfl
  case refine_3 =>
    unfold Cont.rawAppend at hr
    rcases key with _ | k <;> dsimp only at hr
    · cases hr; exact h.sorted
    · split at hr
      · rename_i is his
        split at hr
        · split at hr <;> cases hr
          intro k' is' hk'
          rw [Cont.map_mk, mapGet_mapSet] at hk'
          split at hk'
          · cases hk'
            rw [List.pairwise_append]
            refine ⟨h.sorted _ _ his, by simp, fun x hx y hy => ?_⟩
            rw [List.mem_singleton] at hy; subst hy
            have := h.wf.idx.lt his hx
            simpa using this
          · exact h.sorted _ _ hk'
        · cases hr
      · cases hr
        intro k' is' hk'
        rw [Cont.map_mk, mapGet_mapSet] at hk'
        split at hk'
        · cases hk'; simp
        · exact h.sorted _ _ hk'
  rw [h2, hb]
  rintro ⟨k, hk⟩
  rw [List.map_append, List.mem_append] at hk
  rcases hk with hk | hk
  · have := h.keys ⟨k, hk⟩
    simp [this]
  · rcases key with _ | k'
    · simp [Entry.shape, Entry.name] at hk
    · simp [Entry.shape, Entry.name] at hk
      simp [← hk.2]

theorem appendTail_PW {c c' : Cont} (h : PW c) (hw : c'.WF) {key : Option SKey} {item : Item}
    (hr : c.appendTail key item = .ok c') : PW c' := by
  unfold Cont.appendTail at hr
  rcases key with _ | k <;> dsimp only at hr
  · exact rawAppend_PW h hw hr
  · rw [h.parsed] at hr
    simp only [Bool.not_true, Bool.and_false, Bool.false_and, Bool.false_eq_true, if_false] at hr
    exact rawAppend_PW h hw hr

theorem hasTable_nullAt {is : List Nat} {b : List Entry} (h : hasTable (nullAt is b)) : hasTable b := by
  obtain ⟨k, hk⟩ := h
  obtain ⟨j, hj⟩ := List.getElem?_of_mem hk
  rw [nullAt_shape] at hj
  split at hj
  · rcases b[j]? with _ | x <;> simp at hj
  · rw [← List.getElem?_map] at hj
    exact ⟨k, List.mem_of_getElem? hj⟩

theorem setAt_PW {c : Cont} (h : PW c) {i : Nat} {cur : Entry} (hb : c.body[i]? = some cur) {v : Item}
    (hv : v.isTable = cur.v.isTable) : PW (c.setAt i cur v) := by
  have hs : (c.setAt i cur v).body.map Entry.shape = c.body.map Entry.shape := by
    apply map_set_same
    rw [hb]; simp [Entry.shape, Entry.name, hv]
  refine ⟨h.wf.setAt hb hv, h.parsed, ?_, ?_, h.sorted⟩
  · unfold hasTable
    rw [hs]; exact h.keys
  · rw [dictOfBody_shape hs]; exact h.order

theorem closed_PW : Closed PW where
  wf h := h.wf
  shape h hb := ⟨h.wf.of_shape hb _ _, h.parsed, by
    intro ht
    refine h.keys ?_
    unfold hasTable at ht
    rw [Cont.body_mk, hb] at ht; exact ht, by
    rw [Cont.body_mk, dictOfBody_shape hb]; exact h.order, h.sorted⟩
  copy h := ⟨Cont.WF_copy h.wf, h.parsed, h.keys, rfl, h.sorted⟩
  one k v := ⟨Cont.WF_one k v _ _, rfl, by
    rintro ⟨k', hk⟩
    simp [Entry.shape, Entry.name] at hk
    simp [← hk.2], rfl, by
    intro k' is hk
    simp only [Cont.map_mk, mapGet] at hk
    split at hk
    · cases hk; simp
    · cases hk⟩
  empty := ⟨Cont.WF_empty true, rfl, (by rintro ⟨k, hk⟩; cases hk), rfl, (by intro k is hk; cases hk)⟩
  append1 := by
    intro n al validate c key item c' mv h hr
    have hw := h.wf.append1 hr
    rcases n with _ | n
    · rw [Cont.append1] at hr; cases hr
    cases append1_cases hr with
    | fresh item' _ hp hk ht => exact appendTail_PW h hw ht
    | again item' _ k i cur ct tb hp hk hl hc hi ht => exact appendTail_PW h hw ht
    | aotAdd item' k i cur tb ts t nm p hp hk hal hl hc hi ha => exact setAt_PW h (lastEntry_get hl).1 (by rw [hc]; rfl)
    | toAoT item' k i cur tb ct _ hp hk hal hl hc hi ha hr2 =>
      unfold Cont.replaceByAoT at hr2
      split at hr2
      · cases hr2
      · cases hr2
      · rename_i idx others hm
        cases hr2
        refine ⟨hw, h.parsed, ?_, ?_, ?_⟩
        case refine_2 =>
          have hso := h.sorted _ _ hm
          rw [List.pairwise_cons] at hso
          have hat : ∀ j ∈ idx :: others, (c.body.map Entry.name)[j]? = some (some k.key) := fun j hj => by
            have := h.wf.idx.at hm hj
            rwa [shape_names] at this
          obtain ⟨g1, g2⟩ := dictOfBody_nullAt (is := others) (hat idx (List.mem_cons_self ..))
            (fun j hj => ⟨hso.1 j hj, hat j (List.mem_cons_of_mem _ hj)⟩) (hso.2.imp fun h => by omega)
          rw [Cont.dict_mk, Cont.body_mk, h.order, ← g1, dictOfBody_names, dictOfBody_names, List.map_set]
          congr 1
          apply List.ext_getElem?
          intro j
          rw [List.getElem?_set]
          split
          · rename_i hij
            subst hij
            rw [g2]
            obtain ⟨hlt, _⟩ := List.getElem?_eq_some_iff.1 g2
            rw [if_pos hlt]; rfl
          · rfl
        case refine_3 =>
          intro k' is' hk'
          rw [Cont.map_mk, mapGet_mapSet] at hk'
          split at hk'
          · cases hk'; simp
          · rename_i hne
            rw [mapGet_mapDel, if_neg hne] at hk'
            exact h.sorted _ _ hk'
        rintro ⟨k', hk'⟩
        refine h.keys (hasTable_nullAt (is := others) ?_)
        rw [Cont.body_mk, List.map_set] at hk'
        rcases List.mem_or_eq_of_mem_set hk' with h1 | h1
        · exact ⟨k', h1⟩
        · exfalso
          have : (mkAoT [ct, tb] none c.parsed).invalidate.isTable = false := by
            rw [Item.isTable_invalidate]; rfl
          simp [this] at h1
    | superApart item' k i cur tb ct _ idx hp hk hl hc hi hs hs' hidx hr2 hv =>
      rw [h.parsed] at hidx
      simp only [Bool.not_true, Bool.and_false, Bool.false_eq_true, if_false] at hidx
      rw [hidx, if_neg (Nat.lt_irrefl _)] at hr2
      exact rawAppend_PW h hw hr2
    | superMerge item' k i cur tb ct ct' mv hp hk hl hc hi hs hs' hd hd' hf =>
      exact setAt_PW h (lastEntry_get hl).1 (by rw [hc]; rfl)
    | aotMerge item' k i cur ts t nm p ts' t' nm' p' hp hk hal hl hc hi =>
      exact setAt_PW h (lastEntry_get hl).1 (by rw [hc]; rfl)

/-! ### errors -/

/-- The exceptions of the container operations used by the parser. -/
def AppErr (e : Err) : Prop := e = .keyAlreadyPresent ∨ e = .tomlkit ∨ e = .attributeError ∨ e = .unmodelled

theorem prepare_err {c : Cont} {key : Option SKey} {item : Item} {e : Err} (h : c.prepare key item = .error e) :
    AppErr e := by
  unfold Cont.prepare at h
  split at h
  · cases h; exact Or.inr (Or.inr (Or.inl rfl))
  · rename_i tb _
    dsimp only at h
    generalize (if c.parsed = true then tb else tb.invalidate) = tb' at h
    split at h <;> cases h
  · split at h
    · split at h
      · cases h
      · split at h <;> cases h
    · cases h
  · cases h

theorem rawAppend_err {c : Cont} (hw : c.WF) {key : Option SKey} {item : Item} {e : Err}
    (h : c.rawAppend key item = .error e) : AppErr e := by
  unfold Cont.rawAppend at h
  rcases key with _ | k
  · cases h
  · dsimp only at h
    split at h
    · rename_i is his
      split at h
      · split at h <;> cases h
        exact Or.inl rfl
      · rename_i hx
        exfalso
        obtain ⟨hne, hnd⟩ := hw.idx.ok _ _ his
        have hne : is ≠ [] := by
          intro hn; subst hn; exact hne rfl
        obtain ⟨i, hi⟩ : ∃ i, is.getLast? = some i := ⟨_, List.getLast?_eq_some_getLast hne⟩
        have hat := hw.idx.at his (List.mem_of_getLast? hi)
        rw [shape_names, List.getElem?_map] at hat
        rcases hb : c.body[i]? with _ | x <;> rw [hb] at hat
        · cases hat
        · rw [hi] at hx
          change c.body[i]? = none at hx
          rw [hb] at hx; cases hx
    · cases h

theorem appendTail_err {c : Cont} (hp : PW c) {key : Option SKey} {item : Item} {e : Err}
    (h : c.appendTail key item = .error e) : AppErr e := by
  unfold Cont.appendTail at h
  rcases key with _ | k <;> dsimp only at h
  · exact rawAppend_err hp.wf h
  · rw [hp.parsed] at h
    simp only [Bool.not_true, Bool.and_false, Bool.false_and, Bool.false_eq_true, if_false] at h
    exact rawAppend_err hp.wf h

theorem map_pair_err {α β : Type} {x : Except Err α} {f : α → β} {e : Err} (h : x.map f = .error e) : x = .error e := by
  rcases x with e' | y
  · simp only [Except.map, Except.error.injEq] at h; rw [h]
  · cases h

theorem foldE_err {α β : Type} {f : β → α → Except Err β} (Q : List α → β → Prop) (E : Err → Prop) {l : List α} {b : β}
    {e : Err} (h0 : Q l b)
    (hs : ∀ b a r b', Q (a :: r) b → f b a = .ok b' → Q r b')
    (he : ∀ b a r e, Q (a :: r) b → f b a = .error e → E e) (h : foldE f b l = .error e) : E e := by
  induction l generalizing b with
  | nil => cases h
  | cons a r ih =>
    simp only [foldE] at h
    rcases hf : f b a with e' | b1 <;> rw [hf] at h <;> dsimp only at h
    · cases h; exact he b a r e h0 hf
    · exact ih (hs b a r b1 h0 hf) h

theorem filterMap_congr_mem {α β : Type} {f g : α → Option β} : ∀ {l : List α}, (∀ a ∈ l, f a = g a) →
    l.filterMap f = l.filterMap g
  | [], _ => rfl
  | a :: r, h => by
    rw [List.filterMap_cons, List.filterMap_cons, h a (List.mem_cons_self ..),
      filterMap_congr_mem fun x hx => h x (List.mem_cons_of_mem _ hx)]

/-- the entries of the tables at the given positions, and the room left -/
theorem tablesAt_size {is : List Nat} (hn : is.Nodup) : ∀ (b : List Entry),
    ((tablesAt b is).map fun t => bsz t.cont.body + 2).sum ≤ bsz b := by
  induction is with
  | nil => intro b; simp [tablesAt]
  | cons i r ih =>
    intro b
    rw [List.nodup_cons] at hn
    have hother : ∀ x : Entry, tablesAt (b.set i x) r = tablesAt b r := by
      intro x
      unfold tablesAt
      apply filterMap_congr_mem
      intro j hj
      rw [List.getElem?_set_ne (by intro h; subst h; exact hn.1 hj)]
    rcases hb : b[i]? with _ | e
    · have : tablesAt b (i :: r) = tablesAt b r := by unfold tablesAt; simp [hb]
      rw [this]; exact ih hn.2 b
    · rcases hv : e.v with _ | _ | _ | _ | _ | _ | _ | _ | _ | _ | _ | tb | ⟨ts, t, nm, p⟩ | _
      case table =>
        have : tablesAt b (i :: r) = tb :: tablesAt b r := by unfold tablesAt; simp [hb, hv]
        rw [this, List.map_cons, List.sum_cons]
        have h1 := ih hn.2 (b.set i Entry.nullEntry)
        rw [hother] at h1
        have h2 := bsz_set (e := Entry.nullEntry) hb
        have h3 : Entry.nullEntry.v.size = 1 := rfl
        rw [hv, Item.size_table, Tbl.size_eq, Cont.size_bsz] at h2
        omega
      all_goals
        have : tablesAt b (i :: r) = tablesAt b r := by unfold tablesAt; simp [hb, hv]
        rw [this]; exact ih hn.2 b

theorem tablesAt_mem {b : List Entry} {is : List Nat} {t : Tbl} (h : t ∈ tablesAt b is) : ∃ e ∈ b, e.v = .table t := by
  unfold tablesAt at h
  obtain ⟨i, hi, hx⟩ := List.mem_filterMap.1 h
  rcases hb : b[i]? with _ | e <;> rw [hb] at hx
  · cases hx
  · refine ⟨e, List.mem_of_getElem? hb, ?_⟩
    dsimp only at hx
    split at hx
    · cases hx; assumption
    · cases hx

theorem bsz_flatMap (ts : List Tbl) : bsz (ts.flatMap fun t => t.cont.body) = (ts.map fun t => bsz t.cont.body).sum := by
  induction ts with
  | nil => rfl
  | cons t r ih => rw [List.flatMap_cons, bsz_append, ih]; simp

theorem sum_add_two (ts : List Tbl) (h : ts ≠ []) :
    (ts.map fun t => bsz t.cont.body).sum + 2 ≤ (ts.map fun t => bsz t.cont.body + 2).sum := by
  cases ts with
  | nil => exact absurd rfl h
  | cons t r =>
    simp only [List.map_cons, List.sum_cons]
    have : (r.map fun t => bsz t.cont.body).sum ≤ (r.map fun t => bsz t.cont.body + 2).sum := by
      induction r with
      | nil => simp
      | cons a r ih => simp only [List.map_cons, List.sum_cons]; have := ih (by simp); omega
    omega

/-- With enough fuel, the only exceptions of the container operations are those of `AppErr`. -/
theorem append1_err : ∀ n,
    (∀ {al validate : Bool} {c : Cont} {key : Option SKey} {item : Item} {e : Err}, c.Good PW → item.Good PW →
      3 * (c.size + item.size) + 6 ≤ n → Cont.append1 n al validate c key item = .error e → AppErr e) ∧
    (∀ {c : Cont} {k : Str} {e : Err}, c.Good PW → 3 * c.size + 2 ≤ n → Cont.has n c k = .error e → AppErr e) ∧
    (∀ {c : Cont} {k : Str} {is : List Nat} {e : Err}, c.Good PW → mapGet k c.map = some is → 3 * c.size + 1 ≤ n →
      Cont.mkProxy n c is = .error e → AppErr e) ∧
    (∀ {al : Bool} {t : Tbl} {key : Option SKey} {item : Item} {e : Err}, t.Good PW → item.Good PW →
      3 * (t.size + item.size) + 4 ≤ n → Tbl.append1 n al t key item = .error e → AppErr e) := by
  intro n
  induction n with
  | zero =>
    refine ⟨?_, ?_, ?_, ?_⟩
    · intro _ _ _ _ _ _ _ _ h; omega
    · intro _ _ _ _ h; omega
    · intro _ _ _ _ _ _ h; omega
    · intro _ _ _ _ _ _ _ h; omega
  | succ n ih =>
    obtain ⟨ihA, ihH, ihP, ihT⟩ := ih
    refine ⟨?_, ?_, ?_, ?_⟩
    · intro al validate c key item e hc hi hn h
      have hpw : PW c := ((Cont.good_iff _).1 hc).1
      rw [Cont.append1] at h
      split at h
      · cases h; exact Or.inr (Or.inr (Or.inr rfl))
      rcases hp : c.prepare key item with e1 | item' <;> rw [hp] at h
      · cases h; exact prepare_err hp
      have hsz := prepare_size hp
      have hgi := prepare_good closed_PW hi hp
      dsimp only at h
      rcases key with _ | k
      · exact appendTail_err hpw (map_pair_err h)
      dsimp only at h
      rcases hh : Cont.has n c k.key with e1 | b <;> rw [hh] at h
      · cases h; exact ihH hc (by omega) hh
      cases b
      · exact appendTail_err hpw (map_pair_err h)
      dsimp only at h
      rcases hl : c.lastEntry k.key with _ | ⟨i, cur⟩ <;> rw [hl] at h
      · exfalso
        obtain ⟨is, his⟩ := Option.isSome_iff_exists.1 (Cont.has_true hh)
        obtain ⟨hne, _⟩ := hpw.wf.idx.ok _ _ his
        have hne : is ≠ [] := by intro hn; subst hn; exact hne rfl
        have hi := List.getLast?_eq_some_getLast hne
        have hat := hpw.wf.idx.at his (List.mem_of_getLast? hi)
        rw [shape_names, List.getElem?_map] at hat
        unfold Cont.lastEntry at hl
        rw [his] at hl; dsimp only at hl
        rw [hi] at hl; dsimp only at hl
        rcases hb : c.body[is.getLast hne]? with _ | x <;> rw [hb] at hat hl
        · cases hat
        · cases hl
      dsimp only at h
      have hget := (lastEntry_get hl).1
      rcases item' with _ | _ | _ | _ | _ | _ | _ | _ | _ | _ | _ | tb | ⟨ts, t, nm, p⟩ | _
      case table =>
        dsimp only at h
        split at h
        · cases h; exact Or.inl rfl
        split at h
        · split at h
          · cases h; exact Or.inr (Or.inr (Or.inr rfl))
          · rcases hcv : cur.v with _ | _ | _ | _ | _ | _ | _ | _ | _ | _ | _ | ct | ⟨ts, t, nm, p⟩ | _ <;> rw [hcv] at h
            case table =>
              have h := map_pair_err h
              unfold Cont.replaceByAoT at h
              obtain ⟨is, his⟩ := Option.isSome_iff_exists.1 (Cont.has_true hh)
              obtain ⟨hne, _⟩ := hpw.wf.idx.ok _ _ his
              rw [his] at h
              rcases is with _ | ⟨x, r⟩
              · exact absurd rfl hne
              · cases h
            case aot => cases h
            all_goals (cases h; exact Or.inl rfl)
        · rcases hcv : cur.v with _ | _ | _ | _ | _ | _ | _ | _ | _ | _ | _ | ct | ⟨ts, t, nm, p⟩ | _ <;> rw [hcv] at h
          case table =>
            dsimp only at h
            have hgc := good_at hc hget
            rw [hcv] at hgc
            have hcsz := bsz_mem hget
            rw [hcv, Item.size_table] at hcsz
            have hc' := c.size_bsz
            rw [Item.size_table, Tbl.size_eq, Cont.size_bsz] at hsz
            split at h
            · split at h
              · have hkeys : c.tableKeys ≠ [] := by
                  refine hpw.keys ⟨k.key, ?_⟩
                  obtain ⟨is, _, _, hb, hnm, _⟩ := Cont.lastEntry_spec hpw.wf hl
                  refine List.mem_map.2 ⟨cur, List.mem_of_getElem? hb, ?_⟩
                  simp [Entry.shape, hnm, hcv, Item.isTable]
                obtain ⟨lk, hlk⟩ : ∃ l, c.tableKeys.getLast? = some l := ⟨_, List.getLast?_eq_some_getLast hkeys⟩
                rw [hlk] at h
                dsimp only at h
                split at h
                · rename_i ho; split at ho <;> cases ho
                · split at h
                  · rename_i hr
                    cases h
                    rw [hpw.parsed] at hr
                    simp only [Bool.not_true, Bool.and_false, Bool.false_eq_true, if_false, Nat.lt_irrefl] at hr
                    exact rawAppend_err hpw.wf hr
                  · rename_i c1 hr
                    split at h
                    · rename_i hv
                      cases h
                      rw [hpw.parsed] at hr
                      simp only [Bool.not_true, Bool.and_false, Bool.false_eq_true, if_false, Nat.lt_irrefl] at hr
                      split at hv
                      · have hs1 := rawAppend_size hr
                        rw [prepare_size hp] at hs1
                        refine ihH ?_ ?_ hv
                        · have hw1 : c1.WF := by
                            refine hpw.wf.rawAppend ?_ hr
                            intro _ _ _; rfl
                          rw [Cont.good_iff]
                          exact ⟨rawAppend_PW hpw hw1 hr, rawAppend_bodyGood ((Cont.good_iff _).1 hc).2 hgi hr⟩
                        · omega
                      · cases hv
                    · cases h
                · split at h
                  · rename_i hf
                    cases h
                    refine foldE_err (fun (l : List Entry) (p : Tbl × Bool) => p.1.Good PW ∧ (∀ e ∈ l, e.v.Good PW) ∧
                      p.1.size + bsz l ≤ ct.size + bsz tb.cont.body) AppErr ⟨?_, ?_, ?_⟩ ?_ ?_ hf
                    · exact Tbl.deepCopy_good closed_PW ct hgc
                    · exact ((Cont.good_iff _).1 ((Tbl.good_iff _).1 hgi)).2
                    · rw [Tbl.size_deepCopy]; exact Nat.le_refl _
                    · rintro p a r p' ⟨h1, h2, h3⟩ hx
                      rcases hy : Tbl.append1 n al p.1 a.key a.v with e1 | ⟨t1, m1⟩ <;> rw [hy] at hx <;> cases hx
                      have hs := (append1_size n).2 hy
                      have hb : bsz (a :: r) = 1 + a.v.size + bsz r := by simp [bsz]
                      refine ⟨(append1_good closed_PW n).2 h1 (h2 a (List.mem_cons_self ..)) hy,
                        fun e he => h2 e (List.mem_cons_of_mem _ he), ?_⟩
                      simp only; omega
                    · rintro p a r e ⟨h1, h2, h3⟩ hx
                      have hb : bsz (a :: r) = 1 + a.v.size + bsz r := by simp [bsz]
                      exact ihT h1 (h2 a (List.mem_cons_self ..)) (by omega) (map_pair_err hx)
                  · cases h
              · split at h
                · cases h; exact Or.inr (Or.inl rfl)
                · exact appendTail_err hpw (map_pair_err h)
            · split at h
              · cases h; exact Or.inl rfl
              · exact appendTail_err hpw (map_pair_err h)
          all_goals (cases h; exact Or.inl rfl)
      case aot =>
        dsimp only at h
        split at h
        · split at h
          · cases h; exact Or.inr (Or.inr (Or.inr rfl))
          · cases h
        · cases h; exact Or.inl rfl
      all_goals (cases h; exact Or.inl rfl)
    · intro c k e hc hn h
      rw [Cont.has] at h
      rcases hm : mapGet k c.map with _ | is <;> rw [hm] at h
      · cases h
      · match is, hm, h with
        | [], hm, h => exact ihP hc hm (by omega) (map_pair_err h)
        | [_], _, h => cases h
        | _ :: _ :: _, hm, h => exact ihP hc hm (by omega) (map_pair_err h)
    · intro c k is e hc hm hn h
      have hpw : PW c := ((Cont.good_iff _).1 hc).1
      have hnd := (hpw.wf.idx.ok _ _ hm).2
      have hts := tablesAt_size hnd c.body
      have hcs := c.size_bsz
      rw [Cont.mkProxy] at h
      generalize hL : ((tablesAt c.body is).flatMap fun t => t.cont.body) = L at h
      have hLs : L ≠ [] → bsz L + 2 ≤ bsz c.body := by
        intro hne
        rw [← hL, bsz_flatMap]
        refine Nat.le_trans (sum_add_two _ ?_) hts
        rintro h0; rw [h0] at hL; exact hne hL.symm
      have hLg : ∀ e ∈ L, e.v.Good PW := by
        intro e he
        rw [← hL] at he
        obtain ⟨t, ht, het⟩ := List.mem_flatMap.1 he
        obtain ⟨x, hx, hxv⟩ := tablesAt_mem ht
        have := ((Cont.good_iff _).1 hc).2 x hx
        rw [hxv] at this
        exact ((Cont.good_iff _).1 ((Tbl.good_iff _).1 this)).2 e het
      split at h
      · rename_i hf
        cases h
        refine foldE_err (fun (l : List Entry) (p : Cont) => p.Good PW ∧ (∀ e ∈ l, e.v.Good PW) ∧
          (l ≠ [] → p.size + bsz l ≤ 1 + bsz L ∧ L ≠ [])) AppErr ⟨?_, hLg, ?_⟩ ?_ ?_ hf
        · exact Cont.good_empty closed_PW
        · intro hl
          refine ⟨?_, hl⟩
          rw [Cont.size_bsz]; simp [Cont.empty, bsz]
        · rintro p a r p' ⟨h1, h2, h3⟩ hx
          rcases hy : Cont.append1 n true false p a.key a.v with e1 | ⟨t1, m1⟩ <;> rw [hy] at hx <;> cases hx
          have hs := (append1_size n).1 hy
          have hb : bsz (a :: r) = 1 + a.v.size + bsz r := by simp [bsz]
          obtain ⟨h4, h5⟩ := h3 (by simp)
          refine ⟨(append1_good closed_PW n).1 h1 (h2 a (List.mem_cons_self ..)) hy,
            fun e he => h2 e (List.mem_cons_of_mem _ he), ?_⟩
          intro _
          refine ⟨?_, h5⟩
          simp only; omega
        · rintro p a r e ⟨h1, h2, h3⟩ hx
          have hb : bsz (a :: r) = 1 + a.v.size + bsz r := by simp [bsz]
          obtain ⟨h4, h5⟩ := h3 (by simp)
          have := hLs h5
          exact ihA h1 (h2 a (List.mem_cons_self ..)) (by omega) (map_pair_err hx)
      · rename_i p hf
        split at h
        · rename_i hv
          cases h
          -- the scratch container is good and small
          have hp : p.Good PW ∧ (L ≠ [] → p.size ≤ 1 + bsz L) ∧ (L = [] → p.map = []) := by
            have key : ∀ (l : List Entry) (q : Cont), q.Good PW → (∀ e ∈ l, e.v.Good PW) →
                foldE (fun p (e : Entry) => (Cont.append1 n true false p e.key e.v).map Prod.fst) q l = .ok p →
                p.Good PW ∧ p.size ≤ q.size + bsz l := by
              intro l
              induction l with
              | nil => intro q h1 _ h3; cases h3; exact ⟨h1, by simp [bsz]⟩
              | cons a r ihl =>
                intro q h1 h2 h3
                simp only [foldE] at h3
                rcases hy : Cont.append1 n true false q a.key a.v with e1 | ⟨t1, m1⟩ <;> rw [hy] at h3 <;>
                  simp only [Except.map] at h3
                · cases h3
                · have hs := (append1_size n).1 hy
                  have hb : bsz (a :: r) = 1 + a.v.size + bsz r := by simp [bsz]
                  obtain ⟨h5, h6⟩ := ihl t1 ((append1_good closed_PW n).1 h1 (h2 a (List.mem_cons_self ..)) hy)
                    (fun e he => h2 e (List.mem_cons_of_mem _ he)) h3
                  exact ⟨h5, by omega⟩
            obtain ⟨h1, h2⟩ := key L (.empty true) (Cont.good_empty closed_PW) hLg hf
            refine ⟨h1, ?_, ?_⟩
            · intro _
              have : (Cont.empty true).size = 1 := rfl
              omega
            · intro hl
              rw [hl] at hf
              cases hf; rfl
          by_cases hl : L = []
          · rw [hp.2.2 hl] at hv; cases hv
          · have h1 := hp.2.1 hl
            have h2 := hLs hl
            refine foldE_err (fun _ _ => True) AppErr trivial (fun _ _ _ _ _ _ => trivial) ?_ hv
            rintro _ k _ e _ hx
            exact ihH hp.1 (by omega) (map_pair_err hx)
        · cases h
    · intro al t key item e ht hi hn h
      have hg := (Tbl.good_iff t).1 ht
      have hts := t.size_eq
      rw [Tbl.append1] at h
      rcases hx : Cont.append1 n al true t.cont key item with er | ⟨c, m1⟩ <;> rw [hx] at h <;> dsimp only at h
      · cases h; exact ihA hg hi (by omega) hx
      have hcg := (append1_good closed_PW n).1 hg hi hx
      have hcs := (append1_size n).1 hx
      split at h
      · rename_i ho
        cases h
        rcases key with _ | k
        · cases ho
        · exact ihH hcg (by omega) ho
      split at h
      · cases h
      split at h
      · cases h; exact Or.inr (Or.inr (Or.inr rfl))
      split at h
      · cases h; exact Or.inr (Or.inr (Or.inl rfl))
      split at h
      · cases h
      split at h
      · cases h; exact Or.inr (Or.inr (Or.inl rfl))
      · cases h

end Tomlkit
