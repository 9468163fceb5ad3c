import Verif.Proofs.Deep
/-!
# Container operations keep every container consistent
-/
namespace Tomlkit

section
variable {W : Cont → Prop}


theorem good_at {c : Cont} (h : c.Good W) {i : Nat} {e : Entry} (he : c.body[i]? = some e) : e.v.Good W :=
  ((Cont.good_iff c).1 h).2 e (List.mem_of_getElem? he)

section
variable (hW : Closed W)
include hW

theorem prepare_good {c : Cont} {key : Option SKey} {item item' : Item} (h : item.Good W)
    (hp : c.prepare key item = .ok item') : item'.Good W := by
  unfold Cont.prepare at hp
  have hsome : ∀ i, (if (item.isTableLike && item.name?.isNone) = true then key.map fun k => item.setName k.key
      else some item) = some i → i.Good W := by
    intro i hi
    split at hi
    · obtain ⟨k, _, rfl⟩ := Option.map_eq_some_iff.1 hi
      exact (Item.setName_good _ _).2 h
    · cases hi; exact h
  revert hp
  generalize (if (item.isTableLike && item.name?.isNone) = true then key.map fun k => item.setName k.key
      else some item) = o at hsome
  intro hp
  rcases o with _ | i
  · cases hp
  have hi := hsome i rfl
  rcases i with _ | _ | _ | _ | _ | _ | _ | _ | _ | _ | _ | tb | ⟨ts, t, nm, p⟩ | _
  case table =>
    dsimp only at hp
    have htb : (if c.parsed = true then tb else tb.invalidate).Good W := by
      split
      · exact hi
      · exact Tbl.invalidate_good hW tb hi
    generalize (if c.parsed = true then tb else tb.invalidate) = tb' at hp htb
    split at hp <;> cases hp
    · exact (Tbl.setTrivia_good _ _).2 htb
    · exact htb
  case aot =>
    dsimp only at hp
    split at hp
    · have hts := invalidateAll_good hW ts hi
      rcases hv : invalidateAll ts with _ | ⟨a, r⟩ <;> rw [hv] at hp hts <;> dsimp only at hp
      · cases hp; trivial
      · split at hp <;> cases hp
        · exact hts
        · exact ⟨(Tbl.setTrivia_good _ _).2 hts.1, hts.2⟩
    · cases hp; exact hi
  all_goals (cases hp; exact hi)

theorem setAt_good {c : Cont} (h : c.Good W) {i : Nat} {cur : Entry} (hb : c.body[i]? = some cur) {v : Item}
    (hv : v.isTable = cur.v.isTable) (hg : v.Good W) : (c.setAt i cur v).Good W := by
  rw [Cont.good_iff] at h ⊢
  refine ⟨?_, ?_⟩
  · refine hW.shape h.1 ?_
    apply map_set_same
    rw [hb]; simp [Entry.shape, Entry.name, hv]
  intro e he
  unfold Cont.setAt at he
  rcases List.mem_or_eq_of_mem_set he with h1 | rfl
  · exact h.2 e h1
  · exact hg

omit hW in
theorem addTrailNl_good {i : Nat} {b : List Entry} (h : ∀ e ∈ b, e.v.Good W) : ∀ e ∈ addTrailNl i b, e.v.Good W := by
  intro e he
  rcases mem_modify_of he with h1 | ⟨x, hx, rfl⟩
  · exact h e h1
  · split
    · exact h x hx
    · exact (Item.setTrivia_good _ _).2 (h x hx)

omit hW in
theorem rawAppend_body {c c' : Cont} {key : Option SKey} {item : Item} (hr : c.rawAppend key item = .ok c') :
    c'.body = c.body ++ [.mk key item] := by
  unfold Cont.rawAppend at hr
  rcases key with _ | k <;> dsimp only at hr
  · cases hr; rfl
  · split at hr
    · split at hr
      · split at hr <;> cases hr
        rfl
      · cases hr
    · cases hr; rfl

omit hW in
theorem rawAppend_bodyGood {c c' : Cont} {key : Option SKey} {item : Item} (h : ∀ e ∈ c.body, e.v.Good W)
    (hi : item.Good W) (hr : c.rawAppend key item = .ok c') : ∀ e ∈ c'.body, e.v.Good W := by
  rw [rawAppend_body hr]
  intro e he
  rcases List.mem_append.1 he with h1 | h1
  · exact h e h1
  · rw [List.mem_singleton] at h1; subst h1; exact hi

omit hW in
theorem insertAt_bodyGood {c c' : Cont} {i : Nat} {k : SKey} {item : Item} (h : ∀ e ∈ c.body, e.v.Good W)
    (hi : item.Good W) (hr : c.insertAt i k item = .ok c') : ∀ e ∈ c'.body, e.v.Good W := by
  unfold Cont.insertAt at hr
  split at hr
  · cases hr
  · cases hr
    intro e he
    rcases mem_insertIdx_of he with rfl | h1
    · exact hi
    · split at h1
      · exact addTrailNl_good h e h1
      · exact h e h1

omit hW in
theorem appendTail_bodyGood {c c' : Cont} {key : Option SKey} {item : Item} (h : ∀ e ∈ c.body, e.v.Good W)
    (hi : item.Good W) (hr : c.appendTail key item = .ok c') : ∀ e ∈ c'.body, e.v.Good W := by
  unfold Cont.appendTail at hr
  rcases key with _ | k <;> dsimp only at hr
  · exact rawAppend_bodyGood h hi hr
  · split at hr
    · split at hr
      · exact insertAt_bodyGood h hi hr
      · refine rawAppend_bodyGood (c := Cont.mk _ _ _ _ _) ?_ hi hr; exact addTrailNl_good h
    · exact rawAppend_bodyGood h hi hr

omit hW in
theorem nullAt_good {is : List Nat} {b : List Entry} (h : ∀ e ∈ b, e.v.Good W) : ∀ e ∈ nullAt is b, e.v.Good W := by
  unfold nullAt
  induction is generalizing b with
  | nil => exact h
  | cons i r ih =>
    refine ih ?_
    intro e he
    rcases List.mem_or_eq_of_mem_set he with h1 | rfl
    · exact h e h1
    · trivial

theorem replaceByAoT_bodyGood {c c' : Cont} {k : SKey} {v : Item} (h : ∀ e ∈ c.body, e.v.Good W) (hv : v.Good W)
    (hr : c.replaceByAoT k v = .ok c') : ∀ e ∈ c'.body, e.v.Good W := by
  unfold Cont.replaceByAoT at hr
  split at hr
  · cases hr
  · cases hr
  · cases hr
    intro e he
    rcases List.mem_or_eq_of_mem_set he with h1 | rfl
    · exact nullAt_good h e h1
    · exact Item.invalidate_good hW v hv

omit hW in
theorem foldE_inv {α β : Type} {f : β → α → Except Err β} (Q : β → Prop) {l : List α} {b b' : β} (h0 : Q b)
    (hs : ∀ b a b', a ∈ l → Q b → f b a = .ok b' → Q b') (h : foldE f b l = .ok b') : Q b' := by
  induction l generalizing b with
  | nil => cases h; exact h0
  | cons a r ih =>
    simp only [foldE] at h
    rcases hf : f b a with e | b1 <;> rw [hf] at h <;> dsimp only at h
    · cases h
    · exact ih (hs b a b1 (List.mem_cons_self ..) h0 hf) (fun b a b' ha => hs b a b' (List.mem_cons_of_mem _ ha)) h

/-- the main induction: appending keeps all containers consistent -/
theorem append1_good : ∀ n, (∀ {al validate : Bool} {c : Cont} {key : Option SKey} {item : Item} {c' : Cont} {mv : Bool},
      c.Good W → item.Good W → Cont.append1 n al validate c key item = .ok (c', mv) → c'.Good W) ∧
    (∀ {al : Bool} {t : Tbl} {key : Option SKey} {item : Item} {t' : Tbl} {mv : Bool},
      t.Good W → item.Good W → Tbl.append1 n al t key item = .ok (t', mv) → t'.Good W) := by
  intro n
  induction n with
  | zero =>
    constructor
    · intro _ _ _ _ _ _ _ _ _ h; rw [Cont.append1] at h; cases h
    · intro _ _ _ _ _ _ _ _ h; rw [Tbl.append1] at h; cases h
  | succ n ih =>
    constructor
    · intro al validate c key item c' mv hc hi hr
      have hwf := hW.wf ((Cont.good_iff _).1 hc).1
      have hb := ((Cont.good_iff _).1 hc).2
      have hwf' := hW.append1 ((Cont.good_iff _).1 hc).1 hr
      rw [Cont.good_iff]
      refine ⟨hwf', ?_⟩
      cases append1_cases hr with
      | fresh item' _ hp hk ht => exact appendTail_bodyGood hb (prepare_good hW hi hp) ht
      | again item' _ k i cur ct tb hp hk hl hcv hi' ht => exact appendTail_bodyGood hb (prepare_good hW hi hp) ht
      | aotAdd item' k i cur tb ts t nm p hp hk hal hl hcv hi' ha =>
        obtain ⟨is', h1, h2, h3, h4, h5, h6⟩ := Cont.lastEntry_spec hwf hl
        have hg := prepare_good hW hi hp
        subst hi'
        have hcg := good_at hc h3
        rw [hcv] at hcg
        refine ((Cont.good_iff _).1 (setAt_good hW hc h3 (by rw [hcv]; rfl) ?_)).2
        exact (Item.good_aot _ _ _ _).2 (aotAppend_good ((Item.good_aot _ _ _ _).1 hcg) hg)
      | toAoT item' k i cur tb ct _ hp hk hal hl hcv hi' ha hr2 =>
        obtain ⟨is', h1, h2, h3, h4, h5, h6⟩ := Cont.lastEntry_spec hwf hl
        have hg := prepare_good hW hi hp
        subst hi'
        have hcg := good_at hc h3
        rw [hcv] at hcg
        refine replaceByAoT_bodyGood hW hb (mkAoT_good ?_) hr2
        intro t ht
        simp only [List.mem_cons, List.not_mem_nil, or_false] at ht
        rcases ht with rfl | rfl
        · exact hcg
        · exact hg
      | superApart item' k i cur tb ct _ idx hp hk hl hcv hi' hs hs' hidx hr2 hv =>
        have hg := prepare_good hW hi hp
        split at hr2
        · exact insertAt_bodyGood hb hg hr2
        · exact rawAppend_bodyGood hb hg hr2
      | superMerge item' k i cur tb ct ct' mv hp hk hl hcv hi' hs hs' hd hd' hf =>
        obtain ⟨is', h1, h2, h3, h4, h5, h6⟩ := Cont.lastEntry_spec hwf hl
        have hg := prepare_good hW hi hp
        subst hi'
        have hcg := good_at hc h3
        rw [hcv] at hcg
        refine ((Cont.good_iff _).1 (setAt_good hW hc h3 (by rw [hcv]; rfl) ?_)).2
        have hbody := ((Cont.good_iff _).1 ((Tbl.good_iff _).1 ((Item.good_table _).1 hg))).2
        refine foldE_inv (fun p : Tbl × Bool => p.1.Good W) (Tbl.deepCopy_good hW ct hcg) ?_ hf
        intro p e p' he hp hf'
        rcases hx : Tbl.append1 n al p.1 e.key e.v with er | ⟨t1, m1⟩ <;> rw [hx] at hf' <;> cases hf'
        exact ih.2 hp (hbody e he) hx
      | aotMerge item' k i cur ts t nm p ts' t' nm' p' hp hk hal hl hcv hi' =>
        obtain ⟨is', h1, h2, h3, h4, h5, h6⟩ := Cont.lastEntry_spec hwf hl
        have hg := prepare_good hW hi hp
        subst hi'
        have hcg := good_at hc h3
        rw [hcv] at hcg
        refine ((Cont.good_iff _).1 (setAt_good hW hc h3 (by rw [hcv]; rfl) ?_)).2
        exact (Item.good_aot _ _ _ _).2 (aotFold_good ts ((Item.good_aot _ _ _ _).1 hcg)
          ((Item.good_aot _ _ _ _).1 hg))
    · intro al t key item t' mv ht hi hr
      rw [Tbl.append1] at hr
      rcases hx : Cont.append1 n al true t.cont key item with er | ⟨c, m1⟩ <;> rw [hx] at hr <;> dsimp only at hr
      · cases hr
      have hc := ih.1 ((Tbl.good_iff t).1 ht) hi hx
      split at hr
      · cases hr
      rcases hsp : spaceRun t.trivia.indent with _ | ind <;> rw [hsp] at hr <;> dsimp only at hr
      · cases hr; exact (Tbl.setCont_good _ _).2 hc
      split at hr
      · cases hr
      split at hr
      · cases hr
      split at hr
      · cases hr; exact (Tbl.setCont_good _ _).2 hc
      split at hr
      · cases hr
      · cases hr
        rw [Tbl.setCont_good, Cont.good_iff]
        have hw := (Cont.good_iff _).1 hc
        refine ⟨?_, ?_⟩
        · refine hW.shape hw.1 ?_
          unfold setTriviaAt
          apply map_modify_same
          intro e; cases e; simp [Item.isTable_setTrivia]
        · intro e he
          unfold setTriviaAt at he
          rcases mem_modify_of he with h1 | ⟨x, hx, rfl⟩
          · exact hw.2 e h1
          · exact (Item.setTrivia_good _ _).2 (hw.2 x hx)

theorem dottedTable_good {k : SKey} {v : Item} {n : Option Str} (h : v.Good W) : (dottedTable k v n).Good W := by
  unfold dottedTable
  rw [Tbl.good_iff, Tbl.cont, Cont.good_iff]
  exact ⟨hW.one _ _, by intro e he; rw [Cont.body_mk, List.mem_singleton] at he; subst he; exact h⟩

theorem dottedChain_good : ∀ {ks : List SKey} {nm : Option Str} {sep : Str} {v : Item} {t : Tbl}, v.Good W →
    dottedChain nm ks sep v = some t → t.Good W
  | [], _, _, _, _, _, h => by cases h
  | [k], _, _, _, _, hv, h => by
    simp only [dottedChain, Option.some.injEq] at h; subst h; exact dottedTable_good hW hv
  | k :: k2 :: r, nm, sep, v, t, hv, h => by
    simp only [dottedChain] at h
    obtain ⟨t1, h1, rfl⟩ := Option.map_eq_some_iff.1 h
    exact dottedTable_good hW (v := .table t1) (dottedChain_good hv h1)

theorem append_good {validate : Bool} {c : Cont} (h : c.Good W) {key : Option Key} {v : Item} (hv : v.Good W)
    {c' : Cont} {mv : Bool} (hr : Cont.append validate c key v = .ok (c', mv)) : c'.Good W := by
  unfold Cont.append at hr
  rcases key with _ | key <;> simp only at hr
  · exact (append1_good hW _).1 h hv hr
  · rcases hkp : key.parts with _ | ⟨k, _ | ⟨k2, r⟩⟩ <;> rw [hkp] at hr <;> simp only at hr
    · cases hr
    · exact (append1_good hW _).1 h hv hr
    · split at hr
      · cases hr
      · rcases hdc : dottedChain none (k2 :: r) key.sep v with _ | t <;> rw [hdc] at hr <;> dsimp only at hr
        · cases hr
        · exact (append1_good hW _).1 h ((Item.good_table t).2 (dottedChain_good hW hv hdc)) hr

theorem tblRawAppend_good {t : Tbl} (h : t.Good W) {key : Option Key} {v : Item} (hv : v.Good W) {t' : Tbl} {mv : Bool}
    (hr : Tbl.rawAppend t key v = .ok (t', mv)) : t'.Good W := by
  unfold Tbl.rawAppend at hr
  rcases hx : Cont.append false t.cont key v with er | ⟨c, m1⟩ <;> rw [hx] at hr <;> dsimp only at hr
  · cases hr
  · split at hr <;> cases hr
    exact (Tbl.setCont_good _ _).2 (append_good hW ((Tbl.good_iff t).1 h) hv hx)
end
end

end Tomlkit
