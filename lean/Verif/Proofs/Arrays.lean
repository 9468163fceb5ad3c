import Verif.Spec.Lists
/-! Lemmas about array groups. -/
namespace Tomlkit

@[simp] theorem printed_nil : printed [] = [] := rfl
@[simp] theorem printed_append (a b : List AGroup) : printed (a ++ b) = printed a ++ printed b := by
  induction a with
  | nil => rfl
  | cons g r ih =>
    cases g with
    | noval => simpa [printed] using ih
    | val i v c m => by_cases h : v.isNull <;> simp [printed, h, ih]

theorem printed_cons (g : AGroup) (r : List AGroup) : printed (g :: r) = printed [g] ++ printed r := printed_append [g] r

@[simp] theorem printed_setComma (g : AGroup) (c) : printed [g.setComma c] = printed [g] := by cases g <;> rfl
@[simp] theorem printed_setIndent (g : AGroup) (c) : printed [g.setIndent c] = printed [g] := by cases g <;> rfl
@[simp] theorem hasElem_setComma (g : AGroup) (c) : (g.setComma c).hasElem = g.hasElem := by cases g <;> rfl
@[simp] theorem hasElem_setIndent (g : AGroup) (c) : (g.setIndent c).hasElem = g.hasElem := by cases g <;> rfl

theorem printed_of_hasElem {g : AGroup} (h : g.hasElem = true) : ∃ i v c m, g = .val i v c m ∧ printed [g] = [v] := by
  cases g with
  | noval => cases h
  | val i v c m => exact ⟨i, v, c, m, rfl, by simp [AGroup.hasElem] at h; simp [printed, h]⟩

theorem printed_of_not {g : AGroup} (h : g.hasElem = false) : printed [g] = [] := by
  cases g with
  | noval => rfl
  | val i v c m => simp [AGroup.hasElem] at h; simp [printed, h]

theorem reindexFrom_append (k : Nat) (a b : List AGroup) :
    reindexFrom k (a ++ b) = reindexFrom k a ++ reindexFrom (k + a.length) b := by
  induction a generalizing k with
  | nil => simp [reindexFrom]
  | cons g r ih =>
    have : k + 1 + r.length = k + (r.length + 1) := by omega
    by_cases h : g.hasElem <;> simp [reindexFrom, h, ih, this]

theorem reindexFrom_length (k : Nat) (a : List AGroup) : (reindexFrom k a).length = (printed a).length := by
  induction a generalizing k with
  | nil => rfl
  | cons g r ih =>
    rw [printed_cons]
    cases h : g.hasElem with
    | true =>
      obtain ⟨i, v, c, m, rfl, hp⟩ := printed_of_hasElem h
      simp [reindexFrom, h, hp, ih]
    | false => simp [reindexFrom, h, printed_of_not h, ih]

theorem reindex_length (gs : List AGroup) : (reindex gs).length = (printed gs).length := reindexFrom_length 0 gs

theorem reindexFrom_split (k : Nat) (gs : List AGroup) (i gi : Nat) (h : (reindexFrom k gs)[i]? = some gi) :
    ∃ pre g post, gs = pre ++ g :: post ∧ k + pre.length = gi ∧ (printed pre).length = i ∧ g.hasElem = true := by
  induction gs generalizing k i with
  | nil => simp [reindexFrom] at h
  | cons g r ih =>
    cases he : g.hasElem with
    | true =>
      simp only [reindexFrom, he, if_true] at h
      cases i with
      | zero => simp at h; exact ⟨[], g, r, rfl, by simpa using h, rfl, he⟩
      | succ i =>
        simp only [List.getElem?_cons_succ] at h
        obtain ⟨pre, g', post, rfl, h1, h2, h3⟩ := ih (k + 1) i h
        obtain ⟨_, v, _, _, _, hp⟩ := printed_of_hasElem he
        refine ⟨g :: pre, g', post, rfl, by simp; omega, ?_, h3⟩
        rw [printed_cons, hp]; simp [h2]
    | false =>
      simp only [reindexFrom, he, Bool.false_eq_true, if_false] at h
      obtain ⟨pre, g', post, rfl, h1, h2, h3⟩ := ih (k + 1) i h
      refine ⟨g :: pre, g', post, rfl, by simp; omega, ?_, h3⟩
      rw [printed_cons, printed_of_not he]; simp [h2]

theorem reindex_split {gs : List AGroup} {i gi : Nat} (h : (reindex gs)[i]? = some gi) :
    ∃ pre g post, gs = pre ++ g :: post ∧ pre.length = gi ∧ (printed pre).length = i ∧ g.hasElem = true := by
  obtain ⟨pre, g, post, h1, h2, h3, h4⟩ := reindexFrom_split 0 gs i gi h
  exact ⟨pre, g, post, h1, by omega, h3, h4⟩

/-- list and text of an array agree -/
structure ArrObj.Inv (a : ArrObj) : Prop where
  elems : printed a.groups = a.list
  map : a.imap = reindex a.groups

theorem ArrObj.Inv.imap_get {a : ArrObj} (h : a.Inv) {i : Nat} (hi : i < a.list.length) :
    ∃ pre g post, a.groups = pre ++ g :: post ∧ a.imap[i]? = some pre.length ∧ (printed pre).length = i ∧
      g.hasElem = true := by
  have hl : i < (reindex a.groups).length := by rw [reindex_length, h.elems]; exact hi
  have hg : (reindex a.groups)[i]? = some (reindex a.groups)[i] := List.getElem?_eq_getElem hl
  obtain ⟨pre, g, post, h1, h2, h3, h4⟩ := reindex_split hg
  exact ⟨pre, g, post, h1, by rw [h.map, hg, h2], h3, h4⟩

theorem insertIdx_append {α : Type} (a b : List α) (x : α) : (a ++ b).insertIdx a.length x = a ++ x :: b := by
  induction a with
  | nil => rfl
  | cons y r ih => simp [ih]

theorem modify_append {α : Type} (a b : List α) (x : α) (f : α → α) :
    (a ++ x :: b).modify a.length f = a ++ f x :: b := by
  induction a with
  | nil => rfl
  | cons y r ih => simp [ih]

theorem printed_flush (g : GroupSt) : printed (flushGroup g) = (g.v.filter fun v => !v.isNull).toList := by
  unfold flushGroup GroupSt.nonEmpty GroupSt.toGroup
  cases hv : g.v with
  | none =>
    simp only [Option.isSome_none, Bool.or_false, Option.filter_none, Option.toList_none]
    split <;> rfl
  | some v =>
    cases hn : v.isNull <;> simp [printed, hn, Option.filter]

theorem groupLoop_other (g : GroupSt) (it : Item) (r : List Item) (h : it.isFiller = false) :
    groupLoop g (it :: r) = if g.v.isNone then groupLoop { g with v := some it } r
      else flushGroup g ++ groupLoop { v := some it } r := by
  cases it <;> first | (cases h; done) | (simp only [groupLoop]; cases g.v <;> rfl)

theorem printed_groupLoop (g : GroupSt) (items : List Item) :
    printed (groupLoop g items) = (g.v.filter fun v => !v.isNull).toList ++ items.filter Item.isData := by
  induction items generalizing g with
  | nil => simp [groupLoop, printed_flush]
  | cons it r ih =>
    have hdflt : (some (g.v.getD Item.nullItem)).filter (fun v => !v.isNull) = g.v.filter fun v => !v.isNull := by
      cases g.v with
      | none => rfl
      | some v => rfl
    cases hf : it.isFiller with
    | true =>
      cases it with
      | ws s f =>
        simp only [groupLoop]
        split
        · simp [printed_flush, ih, Item.isData, Item.isWhitespace]
        · rw [ih]; simp only; rw [hdflt]; simp [Item.isData, Item.isWhitespace]
      | comment t =>
        simp only [groupLoop]
        rw [ih]; simp only; rw [hdflt]; simp [Item.isData, Item.isWhitespace, Item.isComment]
      | _ => cases hf
    | false =>
      rw [groupLoop_other g it r hf]
      have hdata : it.isData = !it.isNull := by
        simp [Item.isFiller] at hf
        simp [Item.isData, hf]
      have hfil : (Option.filter (fun v => !v.isNull) (some it)).toList = [it].filter Item.isData := by
        cases hn : it.isNull <;> simp [Option.filter, hn, hdata]
      have hc : (it :: r).filter Item.isData = [it].filter Item.isData ++ r.filter Item.isData :=
        List.filter_append (p := Item.isData) [it] r
      cases hv : g.v with
      | none =>
        simp only [Option.isNone_none, if_true]
        rw [ih]; simp only; rw [hfil, hc]; simp
      | some v =>
        simp only [Option.isNone_some, Bool.false_eq_true, if_false]
        rw [printed_append, printed_flush, ih, hv]; simp only; rw [hfil, hc]

theorem mkArray_inv (vs : List Item) : (mkArray vs).Inv := by
  refine ⟨?_, rfl⟩
  simp only [mkArray, groupValues]
  rw [printed_groupLoop]
  rfl

/-! ## Insertion -/

theorem printed_val (i it c m) (h : it.isNull = false) : printed [AGroup.val i it c m] = [it] := by simp [printed, h]

theorem printed_insertGroup (pre post : List AGroup) (dflt : Str) (e : Bool) (it : Item) (h : it.isNull = false) :
    printed (insertGroup (pre ++ post) pre.length dflt e it) = printed pre ++ it :: printed post := by
  unfold insertGroup
  simp only
  split
  · rename_i h0
    have : pre = [] := List.eq_nil_of_length_eq_zero h0
    subst this
    simp [printed, h]
  · rename_i h0
    obtain ⟨p, last, rfl⟩ : ∃ p last, pre = p ++ [last] := by
      rcases List.eq_nil_or_concat pre with rfl | ⟨p, last, rfl⟩
      · simp at h0
      · exact ⟨p, last, by rw [List.concat_eq_append]⟩
    have hlast : (p ++ [last] ++ post)[(p ++ [last]).length - 1]? = some last := by simp
    rw [hlast]
    simp only
    have hset : ∀ g, (p ++ [last] ++ post).set ((p ++ [last]).length - 1) g = (p ++ [g]) ++ post := by
      intro g; simp
    split
    · rw [hset]
      have hl : (p ++ [last]).length = (p ++ [last.setComma (some (t!","))]).length := by simp
      rw [hl, insertIdx_append, printed_append, printed_append, printed_setComma, printed_cons (.val _ _ _ _),
        printed_val _ it _ _ h, printed_append]
      rfl
    · rw [insertIdx_append]
      rw [printed_append, printed_cons, printed_val _ it _ _ h]
      simp

theorem insertPoint_split {gs : List AGroup} {length p idx : Nat} {dflt : Str} (hl : (printed gs).length = length)
    (h : insertPoint gs (reindex gs) length p = some (idx, dflt)) :
    ∃ pre post, gs = pre ++ post ∧ pre.length = idx ∧ (printed pre).length = min p length := by
  unfold insertPoint at h
  split at h
  · rename_i hp
    simp only [Option.map_eq_some_iff, Prod.mk.injEq] at h
    obtain ⟨gi, hgi, rfl, _⟩ := h
    obtain ⟨pre, g, post, rfl, h2, h3, h4⟩ := reindex_split hgi
    exact ⟨pre, g :: post, rfl, h2, by omega⟩
  · rename_i hp
    simp only at h
    split at h
    · rename_i g hg
      split at h
      · rename_i hw
        simp at h
        obtain ⟨rfl, _⟩ := h
        obtain ⟨ini, rfl⟩ := List.getLast?_eq_some_iff.1 hg
        refine ⟨ini, [g], rfl, by simp, ?_⟩
        have : printed [g] = [] := by
          cases g with
          | noval => rfl
          | val => cases hw
        simp [this] at hl
        omega
      · simp at h
        obtain ⟨rfl, _⟩ := h
        exact ⟨gs, [], by simp, rfl, by omega⟩
    · simp at h
      obtain ⟨rfl, _⟩ := h
      exact ⟨gs, [], by simp, rfl, by omega⟩

theorem insertPoint_isSome (gs : List AGroup) (length p : Nat) (hl : (printed gs).length = length) :
    ∃ x, insertPoint gs (reindex gs) length p = some x := by
  unfold insertPoint
  split
  · rename_i hp
    have : p < (reindex gs).length := by rw [reindex_length]; omega
    simp [List.getElem?_eq_getElem this]
  · simp only
    split
    · split <;> exact ⟨_, rfl⟩
    · exact ⟨_, rfl⟩

theorem insert_inv {a : ArrObj} (h : a.Inv) (k : Int) (it : Item) (hd : it.isData = true) :
    ∃ b, a.insert k it = .ok b ∧ b.Inv ∧ b.list = pyInsert a.list k it := by
  have hn : it.isNull = false := by simp [Item.isData] at hd; exact hd.2
  have hf : it.isFiller = false := by
    simp [Item.isData] at hd; simp [Item.isFiller, hd.1.1, hd.1.2]
  obtain ⟨⟨idx, dflt⟩, hx⟩ := insertPoint_isSome a.groups a.list.length
    (if k < 0 then (k + a.list.length).toNat else k.toNat) (by rw [h.elems])
  obtain ⟨pre, post, hg, hi, hp⟩ := insertPoint_split (by rw [h.elems]) hx
  unfold ArrObj.insert
  simp only [h.map, hx, hf, Bool.false_eq_true, if_false]
  refine ⟨_, rfl, ⟨?_, rfl⟩, rfl⟩
  simp only
  rw [hg, ← hi, printed_insertGroup pre post _ _ it hn]
  have he := h.elems
  rw [hg, printed_append] at he
  rw [← he] at hp ⊢
  unfold pyInsert
  have hpos : pyInsertPos k (printed pre ++ printed post).length = (printed pre).length := by
    rw [hp]
    unfold pyInsertPos
    split <;> omega
  rw [hpos, insertIdx_append]

theorem pyInsert_end {α : Type} (l : List α) (x : α) : pyInsert l l.length x = l ++ [x] := by
  unfold pyInsert pyInsertPos
  have : ¬ ((l.length : Int) < 0) := by omega
  rw [if_neg this]
  have := insertIdx_append l [] x
  simpa using this

theorem append_inv {a : ArrObj} (h : a.Inv) (it : Item) (hd : it.isData = true) :
    ∃ b, a.append it = .ok b ∧ b.Inv ∧ b.list = a.list ++ [it] := by
  obtain ⟨b, h1, h2, h3⟩ := insert_inv h a.list.length it hd
  exact ⟨b, h1, h2, by rw [h3, pyInsert_end]⟩

theorem extend_inv {a : ArrObj} (h : a.Inv) (its : List Item) (hd : its.all Item.isData = true) :
    ∃ b, a.extend its = .ok b ∧ b.Inv ∧ b.list = a.list ++ its := by
  induction its generalizing a with
  | nil => exact ⟨a, rfl, h, by simp⟩
  | cons it r ih =>
    simp only [List.all_cons, Bool.and_eq_true] at hd
    obtain ⟨b, h1, h2, h3⟩ := append_inv h it hd.1
    obtain ⟨c, h4, h5, h6⟩ := ih h2 hd.2
    refine ⟨c, ?_, h5, by rw [h6, h3]; simp⟩
    simp only [ArrObj.extend, h1, h4]

/-! ## Assignment and deletion -/

theorem pyIndex_some {k : Int} {n i : Nat} (h : pyIndex k n = some i) :
    i < n ∧ (i : Int) = (if k < 0 then k + n else k) := by
  unfold pyIndex at h
  simp only at h
  generalize (if k < 0 then k + (n : Int) else k) = j at h
  split at h
  · rename_i hj
    simp at hj h
    omega
  · cases h

theorem set_inv {a : ArrObj} (h : a.Inv) (k : Int) (it : Item) (hd : it.isData = true) :
    match pySet a.list k it with
    | none => a.setItem k it = .error .indexError
    | some l => ∃ b, a.setItem k it = .ok b ∧ b.Inv ∧ b.list = l := by
  have hn : it.isNull = false := by simp [Item.isData] at hd; exact hd.2
  unfold pySet ArrObj.setItem
  cases hk : pyIndex k a.list.length with
  | none => rfl
  | some i =>
    obtain ⟨hi, _⟩ := pyIndex_some hk
    obtain ⟨pre, g, post, hg, hm, hp, he⟩ := h.imap_get hi
    obtain ⟨gi, v, c, m, rfl, hpv⟩ := printed_of_hasElem he
    have hmod : a.groups.modify pre.length (AGroup.setValue it) = pre ++ .val gi it c m :: post := by
      rw [hg, modify_append]; rfl
    simp only [Option.map_some, hm, hmod]
    refine ⟨_, rfl, ⟨?_, ?_⟩, rfl⟩
    · have hel := h.elems
      rw [hg, printed_append, printed_cons, hpv] at hel
      simp only
      rw [printed_append, printed_cons, printed_val _ it _ _ hn, ← hel, ← hp]
      simp
    · rw [h.map, hg]
      simp only [reindex, reindexFrom_append, reindexFrom]
      have h2 : (AGroup.val gi it c m).hasElem = true := by simp [AGroup.hasElem, hn]
      rw [he, h2]

theorem eraseIdx_mid {α : Type} (a b : List α) (x : α) : (a ++ x :: b).eraseIdx a.length = a ++ b := by
  induction a with
  | nil => rfl
  | cons y r ih => simp [ih]

/-- a group list that prints and indexes the same -/
structure SameShape (a b : List AGroup) : Prop where
  printed : printed a = printed b
  index : ∀ k, reindexFrom k a = reindexFrom k b

theorem SameShape.refl (a : List AGroup) : SameShape a a := ⟨rfl, fun _ => rfl⟩

theorem deleteGroup_mid (pre post : List AGroup) (g : AGroup) :
    ∃ post', deleteGroup (pre ++ g :: post) pre.length = pre ++ post' ∧ SameShape post' post := by
  unfold deleteGroup
  rw [eraseIdx_mid]
  simp only
  split
  · rename_i h0
    have : pre = [] := List.eq_nil_of_length_eq_zero h0
    subst this
    cases post with
    | nil => exact ⟨[], rfl, .refl _⟩
    | cons q r =>
      simp only [List.nil_append]
      refine ⟨_, rfl, ?_⟩
      split
      · split
        · exact .refl _
        · exact ⟨by rw [printed_cons, printed_setIndent, ← printed_cons], fun k => by simp [reindexFrom]⟩
      · exact .refl _
  · exact ⟨post, rfl, .refl _⟩

theorem trimLastComma_shape (gs : List AGroup) : SameShape (trimLastComma gs) gs := by
  unfold trimLastComma
  split
  · rename_i g hg
    split
    · exact .refl _
    · obtain ⟨ini, rfl⟩ := List.getLast?_eq_some_iff.1 hg
      refine ⟨by simp, fun k => ?_⟩
      simp [reindexFrom_append, reindexFrom]
  · exact .refl _

theorem del_inv {a : ArrObj} (h : a.Inv) (k : Int) :
    match pyDel a.list k with
    | none => a.delItem k = .error .indexError
    | some l => ∃ b, a.delItem k = .ok b ∧ b.Inv ∧ b.list = l := by
  unfold ArrObj.delItem pyDel
  cases hk : pyIndex k a.list.length with
  | none => rfl
  | some i =>
    obtain ⟨hi, hik⟩ := pyIndex_some hk
    obtain ⟨pre, g, post, hg, hm, hp, he⟩ := h.imap_get hi
    have hidx : (if k < 0 then (a.list.length : Int) + k else k) = (i : Int) := by
      rw [hik]; split <;> omega
    simp only [Option.map_some, hidx]
    rw [if_pos (by omega)]
    simp only [Int.toNat_natCast, hm]
    refine ⟨_, rfl, ⟨?_, rfl⟩, rfl⟩
    simp only
    rw [(trimLastComma_shape _).printed, hg]
    obtain ⟨post', h1, h2⟩ := deleteGroup_mid pre post g
    obtain ⟨gi, v, c, m, rfl, hpv⟩ := printed_of_hasElem he
    rw [h1, printed_append, h2.printed]
    have hel := h.elems
    rw [hg, printed_append, printed_cons, hpv] at hel
    rw [← hel, ← hp]
    exact (eraseIdx_mid (printed pre) (printed post) v).symm

/-! ## Slices -/

/-! ## add_line -/

theorem addLineLoop_spec (addComma : Bool) (n : Nat) : ∀ (its : List Item) (i : Nat) (pend : Str),
    (∀ it ∈ its, it.isNull = false) →
    (its.any (fun i => i.isComment || (addComma && i.isWhitespace)) = true ∧ addLineLoop addComma n i pend its = none) ∨
    (its.any (fun i => i.isComment || (addComma && i.isWhitespace)) = false ∧ ∃ vs, addLineLoop addComma n i pend its = some vs ∧
      vs.filter Item.isData = its.filter Item.isData) := by
  intro its
  induction its with
  | nil =>
    intro i pend _
    refine .inr ⟨rfl, _, rfl, ?_⟩
    split <;> rfl
  | cons it r ih =>
    intro i pend hn
    have hr : ∀ x ∈ r, x.isNull = false := fun x hx => hn x (by simp [hx])
    rw [List.any_cons]
    by_cases hc : (it.isComment || (addComma && it.isWhitespace)) = true
    · refine .inl ⟨by rw [hc]; rfl, ?_⟩
      unfold addLineLoop; rw [if_pos hc]
    · have hc' : (it.isComment || (addComma && it.isWhitespace)) = false := by simpa using hc
      rw [hc', Bool.false_or]
      have hdata : it.isWhitespace = false → it.isData = true := by
        intro hw
        simp only [Bool.or_eq_false_iff] at hc'
        simp [Item.isData, hw, hc'.1, hn it (by simp)]
      have other : ∀ (hw : it.isWhitespace = false), addLineLoop addComma n i pend (it :: r) =
          (addLineLoop addComma n (i + 1) [] r).map fun rest =>
            (if pend.isEmpty then [] else [.ws pend false]) ++ it ::
              ((if addComma then .ws (t!",") false :: (if i + 1 != n then [.ws (t!" ") false] else []) else []) ++ rest) := by
        intro hw
        conv => lhs; unfold addLineLoop
        rw [if_neg hc]
        cases it <;> first | rfl | cases hw
      cases hw : it.isWhitespace with
      | false =>
        rw [other hw]
        rcases ih (i + 1) [] hr with ⟨h1, h2⟩ | ⟨h1, vs, h2, h3⟩
        · exact .inl ⟨h1, by rw [h2]; rfl⟩
        · refine .inr ⟨h1, _, by rw [h2]; rfl, ?_⟩
          have e1 : ∀ b : Bool, (if b then ([] : List Item) else [.ws pend false]).filter Item.isData = [] := by
            intro b; cases b <;> rfl
          have e2 : ∀ a b : Bool, (if a then Item.ws (t!",") false :: (if b then [Item.ws (t!" ") false] else []) else []).filter
              Item.isData = [] := by
            intro a b; cases a <;> cases b <;> rfl
          rw [List.filter_append, e1, List.nil_append, List.filter_cons_of_pos (hdata hw), List.filter_append, e2, List.nil_append,
            h3, List.filter_cons_of_pos (hdata hw)]
      | true =>
        rcases it with ⟨s, f⟩ | _ | _ | _ | _ | _ | _ | _ | _ | _ | _ | _ | _ | _ <;> try cases hw
        have hs : (Item.ws s f).isData = false := rfl
        rw [List.filter_cons_of_neg (by rw [hs]; decide)]
        unfold addLineLoop
        rw [if_neg hc]
        dsimp only
        split
        · rcases ih (i + 1) pend hr with ⟨h1, h2⟩ | ⟨h1, vs, h2, h3⟩
          · exact .inl ⟨h1, by rw [h2]; rfl⟩
          · refine .inr ⟨h1, _, by rw [h2]; rfl, ?_⟩
            rw [List.filter_cons_of_neg (by rw [hs]; decide), h3]
        · exact ih (i + 1) (pend ++ s) hr

theorem setLastComma_shape : ∀ gs : List AGroup, printed (setLastComma gs) = printed gs ∧ (setLastComma gs).length = gs.length ∧
    (setLastComma gs).map AGroup.isWsOnly = gs.map AGroup.isWsOnly
  | [] => ⟨rfl, rfl, rfl⟩
  | g :: r => by
    obtain ⟨h1, h2, h3⟩ := setLastComma_shape r
    unfold setLastComma
    split
    · rw [printed_cons, h1, ← printed_cons]
      exact ⟨rfl, by simp [h2], by simp [h3]⟩
    · split
      · rename_i hg
        rw [printed_cons, printed_setComma, ← printed_cons]
        refine ⟨rfl, by simp, ?_⟩
        obtain ⟨i, v, c, m, rfl, _⟩ := printed_of_hasElem hg
        rfl
      · rw [printed_cons, h1, ← printed_cons]
        exact ⟨rfl, by simp [h2], by simp [h3]⟩

theorem printed_wsOnly {g : AGroup} (h : g.isWsOnly = true) : printed [g] = [] := by
  rcases g with ⟨i, c, _ | m⟩ | ⟨i, v, c, m⟩ <;> first | rfl | cases h

theorem addLine_inv {a : ArrObj} (h : a.Inv) (its : List Item) (indent : Str) (comment : Option Str) (addComma newline : Bool)
    (hd : (its.all fun i => !i.isNull && !i.losesItem) = true) :
    (its.any (fun i => i.isComment || (addComma && i.isWhitespace)) = true ∧ a.addLine its indent comment addComma newline = .error .valueError) ∨
    (its.any (fun i => i.isComment || (addComma && i.isWhitespace)) = false ∧
      ∃ b, a.addLine its indent comment addComma newline = .ok b ∧ b.Inv ∧ b.list = a.list ++ its.filter Item.isData) := by
  rw [List.all_eq_true] at hd
  have hnull : ∀ it ∈ its, it.isNull = false := by
    intro it hi
    have := hd it hi
    simp only [Bool.and_eq_true, Bool.not_eq_true'] at this
    exact this.1
  have hany : its.any Item.losesItem = false := by
    rw [List.any_eq_false]
    intro it hi
    have := hd it hi
    simp only [Bool.and_eq_true, Bool.not_eq_true'] at this
    rw [this.2]; decide
  unfold ArrObj.addLine addLineValues
  rcases addLineLoop_spec addComma its.length its 0 [] hnull with ⟨h1, h2⟩ | ⟨h1, vs, h2, h3⟩
  · left
    refine ⟨h1, ?_⟩
    rw [h2]; rfl
  · right
    refine ⟨h1, ?_⟩
    rw [h2]
    dsimp only [Option.map_some]
    rw [hany]
    simp only [Bool.false_eq_true, if_false]
    have hfil : its.filter (fun i => !i.isWhitespace) = its.filter Item.isData := by
      apply List.filter_congr
      intro x hx
      rw [List.any_eq_false] at h1
      have h4 := h1 x hx
      simp only [Bool.or_eq_true, not_or, Bool.not_eq_true] at h4
      simp [Item.isData, h4.1, hnull x hx]
    rw [hfil]
    -- the new groups print the items
    have hnew : ∀ (pre post : List Item), pre.filter Item.isData = [] → post.filter Item.isData = [] →
        printed (groupValues (pre ++ vs ++ post)) = its.filter Item.isData := by
      intro pre post hp hq
      unfold groupValues
      rw [printed_groupLoop, List.filter_append, List.filter_append, hp, hq, h3]
      simp
    have hpre : ∀ b : Bool, ∀ s : Str, (if b then ([] : List Item) else [.ws s false]).filter Item.isData = [] := by
      intro b s; cases b <;> rfl
    have hpost : (lineComment its comment).filter Item.isData = [] := by
      unfold lineComment
      split
      · split <;> rfl
      · rfl
    have hn := hnew _ _ (hpre (if newline = true then 10 :: indent else indent).isEmpty (if newline = true then 10 :: indent else indent)) hpost
    refine ⟨_, rfl, ⟨?_, rfl⟩, rfl⟩
    dsimp only
    rcases hl : a.groups.getLast? with _ | last
    · have : a.groups = [] := List.getLast?_eq_none_iff.1 hl
      have ha := h.elems
      rw [this] at ha
      dsimp only
      rw [← ha]
      exact hn
    · dsimp only
      obtain ⟨hs1, hs2, hs3⟩ := setLastComma_shape a.groups
      split
      · rename_i hws
        obtain ⟨init, hinit⟩ := List.getLast?_eq_some_iff.1 hl
        generalize hgs : setLastComma a.groups = gs at *
        obtain ⟨gi, gl, rfl⟩ : ∃ gi gl, gs = gi ++ [gl] := by
          rcases List.eq_nil_or_concat gs with rfl | ⟨gi, gl, rfl⟩
          · rw [hinit] at hs2; simp at hs2
          · exact ⟨gi, gl, List.concat_eq_append ..⟩
        have hgl : gl.isWsOnly = true := by
          rw [hinit, List.map_append, List.map_append] at hs3
          have := List.append_inj_right' hs3 (by simp)
          simp at this
          rw [this]; exact hws
        have hdrop : (gi ++ [gl]).drop ((gi ++ [gl]).length - 1) = [gl] := by simp
        rw [List.dropLast_concat, hdrop, printed_append, printed_append, hn, printed_wsOnly hgl, List.append_nil]
        rw [printed_append, printed_wsOnly hgl, List.append_nil] at hs1
        rw [hs1, h.elems]
      · rw [printed_append, hn, hs1, h.elems]


theorem mem_pyRange {a b s x : Int} (hs : 0 < s) : x ∈ pyRange a b s ↔ a ≤ x ∧ x < b ∧ ∃ j : Nat, x = a + s * j := by
  unfold pyRange pyRangeLen
  simp only [hs, if_true, List.mem_map, List.mem_range]
  constructor
  · rintro ⟨j, hj, rfl⟩
    have hj' : (j : Int) < (b - a + s - 1) / s := by omega
    have h1 : s * ((j : Int) + 1) ≤ b - a + s - 1 := by
      have : (j : Int) + 1 ≤ (b - a + s - 1) / s := hj'
      calc s * ((j : Int) + 1) ≤ s * ((b - a + s - 1) / s) := Int.mul_le_mul_of_nonneg_left this (by omega)
        _ ≤ b - a + s - 1 := Int.mul_ediv_self_le (by omega)
    have h0 : 0 ≤ s * (j : Int) := Int.mul_nonneg (by omega) (by omega)
    rw [Int.mul_add] at h1
    exact ⟨by omega, by omega, j, rfl⟩
  · rintro ⟨h1, h2, j, rfl⟩
    refine ⟨j, ?_, rfl⟩
    have : (j : Int) + 1 ≤ (b - a + s - 1) / s := by
      rw [Int.le_ediv_iff_mul_le hs, Int.add_mul, Int.mul_comm]
      omega
    omega

theorem pyRange_nodup {a b s : Int} (hs : s ≠ 0) : (pyRange a b s).Nodup := by
  unfold pyRange
  unfold List.Nodup
  rw [List.pairwise_map]
  refine List.Pairwise.imp ?_ List.nodup_range
  intro x y hne h
  have h' : s * (x : Int) = s * (y : Int) := by omega
  have := Int.eq_of_mul_eq_mul_left hs h'
  omega

theorem insDesc_mem {x y : Int} {l : List Int} : y ∈ insDesc x l ↔ y = x ∨ y ∈ l := by
  induction l with
  | nil => simp [insDesc]
  | cons z r ih =>
    unfold insDesc
    split
    · simp
    · simp [ih]; constructor <;> (rintro (h | h | h) <;> simp [h])

theorem sortDesc_mem {x : Int} {l : List Int} : x ∈ sortDesc l ↔ x ∈ l := by
  induction l with
  | nil => simp [sortDesc]
  | cons y r ih =>
    have : sortDesc (y :: r) = insDesc y (sortDesc r) := rfl
    rw [this, insDesc_mem, ih]; simp

theorem insDesc_sorted {x : Int} {l : List Int} (h : l.Pairwise (· > ·)) (hx : x ∉ l) : (insDesc x l).Pairwise (· > ·) := by
  induction l with
  | nil => simp [insDesc]
  | cons y r ih =>
    unfold insDesc
    simp only [List.mem_cons, not_or] at hx
    rw [List.pairwise_cons] at h
    split
    · rename_i hge
      rw [List.pairwise_cons]
      refine ⟨?_, List.pairwise_cons.2 h⟩
      intro z hz
      rcases List.mem_cons.1 hz with rfl | hz
      · omega
      · have := h.1 z hz; omega
    · rename_i hlt
      rw [List.pairwise_cons]
      refine ⟨?_, ih h.2 hx.2⟩
      intro z hz
      rcases insDesc_mem.1 hz with rfl | hz
      · omega
      · exact h.1 z hz

theorem sortDesc_sorted {l : List Int} (h : l.Nodup) : (sortDesc l).Pairwise (· > ·) := by
  induction l with
  | nil => exact List.Pairwise.nil
  | cons y r ih =>
    rw [List.nodup_cons] at h
    exact insDesc_sorted (ih h.2) (fun hm => h.1 (sortDesc_mem.1 hm))

theorem eraseIdxs_congr {α : Type} (l : List α) (is js : List Int)
    (h : ∀ i : Nat, i < l.length → ((i : Int) ∈ is ↔ (i : Int) ∈ js)) : eraseIdxs l is = eraseIdxs l js := by
  unfold eraseIdxs
  congr 1
  apply List.filter_congr
  intro p hp
  have hlt : p.2 < l.length := by
    have := List.mem_zipIdx hp
    omega
  have := h p.2 hlt
  by_cases h1 : (p.2 : Int) ∈ is
  · simp [h1, this.1 h1]
  · have h2 : ¬ (p.2 : Int) ∈ js := fun h => h1 (this.2 h)
    simp [h1, h2]

theorem eraseIdxs_append {α : Type} (a b : List α) (is : List Int) :
    eraseIdxs (a ++ b) is = eraseIdxs a is ++ ((b.zipIdx a.length).filter fun p => !is.contains (p.2 : Int)).map (·.1) := by
  simp [eraseIdxs, List.zipIdx_append]

theorem eraseShift_none {α : Type} (b : List α) (k : Nat) (is : List Int) (h : ∀ i ∈ is, i < (k : Int)) :
    ((b.zipIdx k).filter fun p => !is.contains (p.2 : Int)).map (·.1) = b := by
  have : (b.zipIdx k).filter (fun p => !is.contains (p.2 : Int)) = b.zipIdx k := by
    apply List.filter_eq_self.2
    intro p hp
    have := (List.mem_zipIdx hp).1
    simp
    intro hm
    have := h _ hm
    omega
  rw [this]
  simp

theorem eraseIdxs_step {α : Type} (l : List α) (i : Nat) (r : List Int) (hi : i < l.length) (hr : ∀ j ∈ r, j < (i : Int)) :
    eraseIdxs l ((i : Int) :: r) = eraseIdxs (l.eraseIdx i) r := by
  obtain ⟨a, x, b, rfl, rfl⟩ : ∃ a x b, l = a ++ x :: b ∧ a.length = i :=
    ⟨l.take i, l[i], l.drop (i + 1), by rw [List.getElem_cons_drop, List.take_append_drop], by simp; omega⟩
  rw [eraseIdx_mid, eraseIdxs_append, eraseIdxs_append]
  congr 1
  · apply eraseIdxs_congr
    intro j hj
    simp
    omega
  · rw [eraseShift_none b a.length r hr]
    rw [List.zipIdx_cons, List.filter_cons]
    rw [if_neg (by simp)]
    have := eraseShift_none b (a.length + 1) ((a.length : Int) :: r) (by
      intro j hj
      rcases List.mem_cons.1 hj with rfl | hj
      · omega
      · have := hr j hj; omega)
    exact this.symm ▸ rfl

theorem eraseIdxs_drop {α : Type} (l : List α) (i : Int) (r : List Int) (hi : i < 0 ∨ (l.length : Int) ≤ i) :
    eraseIdxs l (i :: r) = eraseIdxs l r := by
  apply eraseIdxs_congr
  intro j hj
  simp
  intro h
  omega

/-- the loop over the positions of a slice -/
theorem deleteGroups_printed (imap : List Nat) (is : List Int) (gs : List AGroup) (bound : Nat)
    (hb : ∀ i < bound, imap[i]? = (reindex gs)[i]?) (hs : is.Pairwise (· > ·))
    (his : ∀ i ∈ is, 0 ≤ i → i.toNat < imap.length → i.toNat < bound) (hlen : bound ≤ imap.length)
    (hlen' : bound ≤ (printed gs).length) (hout : imap.length = bound ∨ ∀ i ∈ is, i < (imap.length : Int)) :
    printed (deleteGroups imap gs is) = eraseIdxs (printed gs) (is.filter fun i => decide (i < (imap.length : Int))) := by
  induction is generalizing gs bound with
  | nil =>
    have := eraseShift_none (printed gs) 0 [] (by simp)
    exact this.symm
  | cons i r ih =>
    rw [List.pairwise_cons] at hs
    unfold deleteGroups
    by_cases h0 : 0 ≤ i ∧ i.toNat < imap.length
    · have hib := his i (by simp) h0.1 h0.2
      rw [if_pos h0.1, hb i.toNat hib]
      have hlt : i.toNat < (reindex gs).length := by rw [reindex_length]; omega
      have hg : (reindex gs)[i.toNat]? = some (reindex gs)[i.toNat] := List.getElem?_eq_getElem hlt
      obtain ⟨pre, g, post, rfl, h2, h3, h4⟩ := reindex_split hg
      rw [hg]
      simp only
      rw [← h2]
      obtain ⟨post', e1, e2⟩ := deleteGroup_mid pre post g
      obtain ⟨gi, v, c, m, rfl, hpv⟩ := printed_of_hasElem h4
      rw [e1]
      have hrle : ∀ j ∈ r, j < (imap.length : Int) := by
        intro j hj
        have := hs.1 j hj
        omega
      rw [ih (pre ++ post') i.toNat ?_ hs.2 ?_ (by omega) ?_ (.inr hrle)]
      · rw [List.filter_cons, if_pos (by simp; omega)]
        have hii : i = ((i.toNat : Nat) : Int) := by omega
        have hpg : printed (pre ++ AGroup.val gi v c m :: post) = printed pre ++ v :: printed post := by
          rw [printed_append, printed_cons, hpv]; rfl
        rw [hpg]
        conv => rhs; rw [hii]
        rw [eraseIdxs_step _ _ _ (by simp; omega) (by
          intro j hj
          have := hs.1 j (List.mem_filter.1 hj).1
          omega)]
        rw [← h3, eraseIdx_mid, printed_append, e2.printed]
      · intro j hj
        rw [hb j (by omega)]
        unfold reindex
        rw [reindexFrom_append, reindexFrom_append]
        have hl : (reindexFrom 0 pre).length = i.toNat := by rw [reindexFrom_length, h3]
        rw [List.getElem?_append_left (by omega), List.getElem?_append_left (by omega)]
      · intro j hj hj0 _
        have := hs.1 j hj
        omega
      · rw [printed_append]; simp; omega
    · have hnone : (if 0 ≤ i then imap[i.toNat]? else none) = none := by
        by_cases h : 0 ≤ i
        · rw [if_pos h]; exact List.getElem?_eq_none (by omega)
        · rw [if_neg h]
      rw [hnone]
      simp only
      rw [ih gs bound hb hs.2 (fun j hj => his j (by simp [hj])) hlen hlen' (by
        rcases hout with h | h
        · exact .inl h
        · exact .inr fun j hj => h j (by simp [hj]))]
      rw [List.filter_cons]
      split
      · rename_i hd
        simp at hd
        rw [eraseIdxs_drop]
        left; omega
      · rfl

theorem delSlice_groups {a : ArrObj} (h : a.Inv) (s : PySlice) (l : List Item) (hl : pyDelSlice a.list s = some l) :
    ∃ b, a.delSlice s = .ok b ∧ b.list = l ∧ b.imap = reindex b.groups ∧
      printed b.groups = eraseIdxs a.list (codeSliceIndices s a.list.length) := by
  unfold ArrObj.delSlice
  rw [hl]
  refine ⟨_, rfl, rfl, rfl, ?_⟩
  simp only
  rw [(trimLastComma_shape _).printed]
  have hlen : a.imap.length = a.list.length := by rw [h.map, reindex_length, h.elems]
  have hstep : orElseInt s.step 1 ≠ 0 := by
    unfold orElseInt
    split
    · split <;> omega
    · omega
  rw [deleteGroups_printed a.imap _ a.groups a.list.length (fun i _ => by rw [h.map])
    (sortDesc_sorted (l := codeSliceIndices s a.list.length) (pyRange_nodup hstep)) (fun i _ _ hi => by omega) (by omega) (by rw [h.elems]; omega) (.inl (by omega))]
  rw [h.elems]
  apply eraseIdxs_congr
  intro i hi
  simp only [List.mem_filter, sortDesc_mem, decide_eq_true_eq]
  constructor
  · exact fun h => h.1
  · exact fun h => ⟨h, by omega⟩

end Tomlkit
