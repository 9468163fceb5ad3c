import Verif.Proofs.ContWF
/-!
# The outcomes of Container.append
-/
namespace Tomlkit

/-- replace the value of the entry at position `i` -/
def Cont.setAt (c : Cont) (i : Nat) (cur : Entry) (v : Item) : Cont :=
  .mk (c.body.set i (.mk cur.key v)) c.map c.dict c.parsed c.tableKeys

/-- The ways `append` can succeed. -/
inductive AppendOut (n : Nat) (al validate : Bool) (c : Cont) (key : Option SKey) (item : Item) : Cont → Bool → Prop
  /-- a new entry, for no key or a new key -/
  | fresh (item' c' : _) (hp : c.prepare key item = .ok item')
      (hk : ∀ k, key = some k → mapGet k.key c.map = none)
      (ht : c.appendTail key item' = .ok c') : AppendOut n al validate c key item c' false
  /-- another part of a table -/
  | again (item' c' k i cur ct tb) (hp : c.prepare key item = .ok item') (hk : key = some k)
      (hl : c.lastEntry k.key = some (i, cur)) (hc : cur.v = .table ct) (hi : item' = .table tb)
      (ht : c.appendTail key item' = .ok c') : AppendOut n al validate c key item c' false
  /-- another table of an array of tables -/
  | aotAdd (item' k i cur tb ts t nm p) (hp : c.prepare key item = .ok item') (hk : key = some k)
      (hal : al = false)
      (hl : c.lastEntry k.key = some (i, cur)) (hc : cur.v = .aot ts t nm p) (hi : item' = .table tb)
      (ha : tb.isAot = true) :
      AppendOut n al validate c key item (c.setAt i cur (.aot (aotAppend t p ts tb) t nm p)) true
  /-- a table that turns out to be the first of an array of tables -/
  | toAoT (item' k i cur tb ct c') (hp : c.prepare key item = .ok item') (hk : key = some k)
      (hal : al = false)
      (hl : c.lastEntry k.key = some (i, cur)) (hc : cur.v = .table ct) (hi : item' = .table tb)
      (ha : tb.isAot = true)
      (hr : c.replaceByAoT k (mkAoT [ct, tb] none c.parsed) = .ok c') :
      AppendOut n al validate c key item c' true
  /-- another super table, kept apart -/
  | superApart (item' k i cur tb ct c' idx) (hp : c.prepare key item = .ok item') (hk : key = some k)
      (hl : c.lastEntry k.key = some (i, cur)) (hc : cur.v = .table ct) (hi : item' = .table tb)
      (hs : ct.isSuper = true) (hs' : tb.isSuper = true)
      (hidx : idx = if k.dotted && !c.parsed then c.lastIndexBeforeTable else c.body.length)
      (hr : (if idx < c.body.length then c.insertAt idx k item' else c.rawAppend key item') = .ok c')
      (hv : validate = true → ∃ b, Cont.has n c' k.key = .ok b) :
      AppendOut n al validate c key item c' (decide (idx < c.body.length))
  /-- another super table, merged -/
  | superMerge (item' k i cur tb ct ct' mv) (hp : c.prepare key item = .ok item') (hk : key = some k)
      (hl : c.lastEntry k.key = some (i, cur)) (hc : cur.v = .table ct) (hi : item' = .table tb)
      (hs : ct.isSuper = true) (hs' : tb.isSuper = true) (hd : k.dotted = false) (hd' : isDottedKey cur.key = false)
      (hf : foldE (fun (p : Tbl × Bool) (e : Entry) =>
          (Tbl.append1 n al p.1 e.key e.v).map fun q => (q.1, p.2 || q.2)) (ct.deepCopy, false) tb.cont.body =
        .ok (ct', mv)) (htk : c.tableKeys.getLast? = some k.key) :
      AppendOut n al validate c key item (c.setAt i cur (.table ct')) ((i + 1 != c.body.length) || cur.key.map SKey.orig != some k.orig || mv)
  /-- an array of tables, merged -/
  | aotMerge (item' k i cur ts t nm p ts' t' nm' p') (hp : c.prepare key item = .ok item') (hk : key = some k)
      (hal : al = false)
      (hl : c.lastEntry k.key = some (i, cur)) (hc : cur.v = .aot ts' t' nm' p') (hi : item' = .aot ts t nm p) :
      AppendOut n al validate c key item (c.setAt i cur (.aot (ts.foldl (aotAppend t' p') ts') t' nm' p'))
        ((i + 1 != c.body.length) || cur.key.map SKey.orig != some k.orig || (spaceRun t'.indent).isSome)

theorem map_pair_ok {α : Type} {x : Except Err α} {b b' : Bool} {a : α} (h : (x.map fun y => (y, b)) = .ok (a, b')) :
    x = .ok a ∧ b' = b := by
  rcases x with e | y
  · cases h
  · simp only [Except.map, Except.ok.injEq, Prod.mk.injEq] at h
    exact ⟨by rw [h.1], h.2.symm⟩

theorem append1_cases {n : Nat} {al validate : Bool} {c : Cont} {key : Option SKey} {item : Item} {c' : Cont} {mv : Bool}
    (h : Cont.append1 (n + 1) al validate c key item = .ok (c', mv)) : AppendOut n al validate c key item c' mv := by
  rw [Cont.append1] at h
  split at h
  · cases h
  rcases hp : c.prepare key item with e | item' <;> rw [hp] at h
  · cases h
  dsimp only at h
  rcases key with _ | k
  · dsimp only at h
    obtain ⟨h1, rfl⟩ := map_pair_ok h
    exact .fresh item' c' hp (by intro k hk; cases hk) h1
  dsimp only at h
  rcases hh : Cont.has n c k.key with e | b <;> rw [hh] at h
  · cases h
  cases b
  · dsimp only at h
    obtain ⟨h1, rfl⟩ := map_pair_ok h
    refine .fresh item' c' hp ?_ h1
    intro k' hk'; cases hk'
    exact Cont.has_false hh
  dsimp only at h
  rcases hl : c.lastEntry k.key with _ | ⟨i, cur⟩ <;> rw [hl] at h
  · cases h
  dsimp only at h
  rcases item' with _ | _ | _ | _ | _ | _ | _ | _ | _ | _ | _ | tb | ⟨ts, t, nm, p⟩ | _
  case table =>
    dsimp only at h
    split at h
    · cases h
    split at h
    · rename_i ha
      split at h
      · cases h
      · rename_i hal
        have hal : al = false := by cases al <;> simp_all
        rcases hc : cur.v with _ | _ | _ | _ | _ | _ | _ | _ | _ | _ | _ | ct | ⟨ts, t, nm, p⟩ | _ <;> rw [hc] at h
        case table =>
          dsimp only at h
          obtain ⟨h1, rfl⟩ := map_pair_ok h
          exact .toAoT _ k i cur tb ct c' hp rfl hal hl hc rfl ha h1
        case aot =>
          dsimp only at h
          simp only [Except.ok.injEq, Prod.mk.injEq] at h
          obtain ⟨rfl, rfl⟩ := h
          exact .aotAdd _ k i cur tb ts t nm p hp rfl hal hl hc rfl ha
        all_goals (cases h)
    · rename_i ha
      rcases hc : cur.v with _ | _ | _ | _ | _ | _ | _ | _ | _ | _ | _ | ct | ⟨ts, t, nm, p⟩ | _ <;> rw [hc] at h
      case table =>
        dsimp only at h
        split at h
        · rename_i hs
          split at h
          · rename_i hs'
            have hmerge : ∀ o : Option Bool, o = (if (k.dotted || isDottedKey cur.key) = true then some true
                else match c.tableKeys.getLast? with
                  | some l => some (!(l == k.key))
                  | none => none) → o = some false →
                (k.dotted = false ∧ isDottedKey cur.key = false) ∧ c.tableKeys.getLast? = some k.key := by
              intro o ho h1
              rw [h1] at ho
              by_cases hd : (k.dotted || isDottedKey cur.key) = true
              · rw [if_pos hd] at ho; cases ho
              · refine ⟨by simpa using hd, ?_⟩
                rw [if_neg hd] at ho
                rcases hl : c.tableKeys.getLast? with _ | l <;> rw [hl] at ho
                · cases ho
                · simpa using ho
            revert h hmerge
            generalize (if (k.dotted || isDottedKey cur.key) = true then some true
                else match c.tableKeys.getLast? with
                  | some l => some (!(l == k.key))
                  | none => none) = o
            intro h hmerge
            rcases o with _ | b
            · cases h
            · cases b
              · dsimp only at h
                obtain ⟨⟨hd, hd'⟩, htk⟩ := hmerge _ rfl rfl
                revert h
                generalize hf : foldE (fun (p : Tbl × Bool) (e : Entry) =>
                  (Tbl.append1 n al p.1 e.key e.v).map fun q => (q.1, p.2 || q.2)) (ct.deepCopy, false) tb.cont.body = r
                intro h
                rcases r with e | ⟨ct', m'⟩
                · cases h
                · simp only [Except.ok.injEq, Prod.mk.injEq] at h
                  obtain ⟨rfl, rfl⟩ := h
                  exact .superMerge _ k i cur tb ct ct' m' hp rfl hl hc rfl hs hs' hd hd' hf htk
              · dsimp only at h
                revert h
                generalize hidx : (if (k.dotted && !c.parsed) = true then c.lastIndexBeforeTable else c.body.length) = idx
                generalize hr : (if idx < c.body.length then c.insertAt idx k (.table tb) else
                  c.rawAppend (some k) (.table tb)) = r
                intro h
                rcases r with e | c1
                · cases h
                · dsimp only at h
                  revert h
                  generalize hv : (if validate = true then Cont.has n c1 k.key else .ok true) = w
                  intro h
                  rcases w with e | b
                  · cases h
                  · simp only [Except.ok.injEq, Prod.mk.injEq] at h
                    obtain ⟨rfl, rfl⟩ := h
                    refine .superApart _ k i cur tb ct c1 idx hp rfl hl hc rfl hs hs' hidx.symm hr ?_
                    intro hvt
                    rw [if_pos hvt] at hv
                    exact ⟨b, hv⟩
          · split at h
            · cases h
            · obtain ⟨h1, rfl⟩ := map_pair_ok h
              exact .again _ c' k i cur ct tb hp rfl hl hc rfl h1
        · split at h
          · cases h
          · obtain ⟨h1, rfl⟩ := map_pair_ok h
            exact .again _ c' k i cur ct tb hp rfl hl hc rfl h1
      all_goals (cases h)
  case aot =>
    dsimp only at h
    rcases hc : cur.v with _ | _ | _ | _ | _ | _ | _ | _ | _ | _ | _ | ct | ⟨ts', t', nm', p'⟩ | _ <;> rw [hc] at h
    case aot =>
      dsimp only at h
      split at h
      · cases h
      · rename_i hal
        have hal : al = false := by cases al <;> simp_all
        simp only [Except.ok.injEq, Prod.mk.injEq] at h
        obtain ⟨rfl, rfl⟩ := h
        exact .aotMerge _ k i cur ts t nm p ts' t' nm' p' hp rfl hal hl hc rfl
    all_goals (cases h)
  all_goals (cases h)

/-! ### consistency -/

theorem Cont.WF.setAt {c : Cont} (h : c.WF) {i : Nat} {cur : Entry} (hb : c.body[i]? = some cur) {v : Item}
    (hv : v.isTable = cur.v.isTable) : (c.setAt i cur v).WF := by
  refine h.of_shape ?_ _ _
  apply map_set_same
  rw [hb]; simp [Entry.shape, Entry.name, hv]

theorem Cont.WF.replaceByAoT {c : Cont} (h : c.WF) {k : SKey} {v : Item} {c' : Cont}
    (hr : c.replaceByAoT k v = .ok c') : c'.WF := by
  unfold Cont.replaceByAoT at hr
  rcases hm : mapGet k.key c.map with _ | is <;> rw [hm] at hr <;> dsimp only at hr
  · cases hr
  rcases is with _ | ⟨i, r⟩
  · cases hr
  · dsimp only at hr
    cases hr
    exact h.keepOne hm _ rfl _ _

theorem Cont.WF.append1 {n : Nat} {al validate : Bool} {c : Cont} (h : c.WF) {key : Option SKey} {item : Item}
    {c' : Cont} {mv : Bool} (hr : Cont.append1 n al validate c key item = .ok (c', mv)) : c'.WF := by
  rcases n with _ | n
  · rw [Cont.append1] at hr; cases hr
  cases append1_cases hr with
  | fresh item' _ hp hk ht =>
    refine h.appendTail ?_ ht
    intro k hkk is his
    rw [hk k hkk] at his; cases his
  | again item' _ k i cur ct tb hp hk hl hc hi ht =>
    refine h.appendTail ?_ ht
    intro k' hkk is his
    rw [hk] at hkk; cases hkk
    obtain ⟨is', h1, h2, h3, h4, h5, h6⟩ := Cont.lastEntry_spec h hl
    rw [his] at h1; cases h1
    exact ⟨by rw [hi]; rfl, h5 (by rw [hc]; rfl)⟩
  | aotAdd item' k i cur tb ts t nm p hp hk hal hl hc hi ha =>
    obtain ⟨is', h1, h2, h3, h4, h5, h6⟩ := Cont.lastEntry_spec h hl
    exact h.setAt h3 (by rw [hc]; rfl)
  | toAoT item' k i cur tb ct _ hp hk hal hl hc hi ha hr2 => exact h.replaceByAoT hr2
  | superApart item' k i cur tb ct _ idx hp hk hl hc hi hs hs' hidx hr2 hv =>
    obtain ⟨is', h1, h2, h3, h4, h5, h6⟩ := Cont.lastEntry_spec h hl
    split at hr2
    · refine h.insertAt ?_ hr2
      intro is his
      rw [his] at h1; cases h1
      exact ⟨by rw [hi]; rfl, h5 (by rw [hc]; rfl)⟩
    · refine h.rawAppend ?_ hr2
      intro _ _ _; rw [hi]; rfl
  | superMerge item' k i cur tb ct ct' mv hp hk hl hc hi hs hs' hd hd' hf =>
    obtain ⟨is', h1, h2, h3, h4, h5, h6⟩ := Cont.lastEntry_spec h hl
    exact h.setAt h3 (by rw [hc]; rfl)
  | aotMerge item' k i cur ts t nm p ts' t' nm' p' hp hk hal hl hc hi =>
    obtain ⟨is', h1, h2, h3, h4, h5, h6⟩ := Cont.lastEntry_spec h hl
    exact h.setAt h3 (by rw [hc]; rfl)

theorem Cont.WF.append {validate : Bool} {c : Cont} (h : c.WF) {key : Option Key} {v : Item} {c' : Cont} {mv : Bool}
    (hr : Cont.append validate c key v = .ok (c', mv)) : c'.WF := by
  unfold Cont.append at hr
  rcases key with _ | key <;> simp only at hr
  · exact h.append1 hr
  · rcases hkp : key.parts with _ | ⟨k, _ | ⟨k2, r⟩⟩ <;> rw [hkp] at hr <;> simp only at hr
    · cases hr
    · exact h.append1 hr
    · split at hr
      · cases hr
      · rcases hdc : dottedChain none (k2 :: r) key.sep v with _ | t <;> rw [hdc] at hr <;> dsimp only at hr
        · cases hr
        · exact h.append1 hr

theorem Cont.finishReplace_shape (c : Cont) (old : Item) (nk : SKey) (idx : Nat) :
    (c.finishReplace old nk idx).body.map Entry.shape = c.body.map Entry.shape ∧
    (c.finishReplace old nk idx).map = c.map ∧
    ((c.finishReplace old nk idx).dict = c.dict ∨ (c.finishReplace old nk idx).dict = dictSet nk.key c.dict) := by
  have h0 : (c.body.modify idx fun e => .mk e.key e.v.invalidate).map Entry.shape = c.body.map Entry.shape := by
    apply map_modify_same
    intro e; cases e; simp [Item.isTable_invalidate]
  unfold Cont.finishReplace
  dsimp only
  split
  · rename_i tb htb
    refine ⟨?_, rfl, Or.inr rfl⟩
    simp only [Cont.body_mk]
    split
    · rw [← h0]
      obtain ⟨e, he, hev⟩ := Option.map_eq_some_iff.1 htb
      apply List.ext_getElem?
      intro j
      rw [List.getElem?_map, List.getElem?_modify, List.getElem?_map]
      by_cases hj : idx = j
      · subst hj
        rw [he]; simp [Entry.shape, hev, Item.isTable, Entry.name]
      · rcases (c.body.modify idx fun e => Entry.mk e.key e.v.invalidate)[j]? with _ | x
        · rfl
        · simp [hj]
    · exact h0
  · exact ⟨h0, rfl, Or.inl rfl⟩

theorem Cont.WF.finishReplace {c : Cont} (h : c.WF) (old : Item) (nk : SKey) (idx : Nat)
    (hk : nk.key ∈ c.dict) : (c.finishReplace old nk idx).WF := by
  obtain ⟨h1, h2, h3⟩ := c.finishReplace_shape old nk idx
  unfold Cont.WF
  rw [h1, h2]
  have h4 : (c.finishReplace old nk idx).dict = c.dict := by
    rcases h3 with h3 | h3
    · exact h3
    · rw [h3]; unfold dictSet; rw [if_pos (by simpa using hk)]
  rw [h4]; exact h

theorem mkKey_key (k : Str) : (mkKey k).key = k := by
  unfold mkKey; split <;> rfl

theorem Cont.mem_dict_of_insertAt {c c' : Cont} {i : Nat} {k : SKey} {v : Item} (h : c.insertAt i k v = .ok c') :
    k.key ∈ c'.dict := by
  unfold Cont.insertAt at h
  split at h
  · cases h
  · cases h; simp only [Cont.dict_mk, mem_dictSet, true_or]

theorem Cont.WF.replaceAt {c : Cont} (h : c.WF) {k : Str} {is : List Nat} (hm : mapGet k c.map = some is) {v : Item}
    {c' : Cont} (hr : c.replaceAt is k v = .ok c') : c'.WF := by
  have hidx := h.idx
  rw [shape_names] at hidx
  unfold Cont.replaceAt at hr
  rcases is with _ | ⟨idx, others⟩
  · cases hr
  dsimp only at hr
  have hne : idx ∉ others := by
    have := (hidx.ok _ _ hm).2
    rw [List.nodup_cons] at this; exact this.1
  have hat := hidx.at hm (List.mem_cons_self ..)
  have hget : (nullAt others c.body)[idx]? = c.body[idx]? := by rw [nullAt_get, if_neg hne]
  rw [hget] at hr
  rcases hb : c.body[idx]? with _ | ⟨_ | ok, old⟩ <;> rw [hb] at hr <;> dsimp only at hr
  · cases hr
  · cases hr
  have hok : ok.key = k := by
    rw [List.getElem?_map, hb] at hat
    simpa using hat
  have hkk : (k != ok.key) = false := by simp [hok]
  simp only [hkk, Bool.or_false] at hr
  have hnk : (if (v.isTableLike != old.isTableLike) = true then mkKey k else ok).key = k := by
    split
    · exact mkKey_key k
    · exact hok
  generalize (if (v.isTableLike != old.isTableLike) = true then mkKey k else ok) = nk at hr hnk
  have hdd : (nk.key != ok.key) = false := by simp [hnk, hok]
  simp only [hdd, Bool.false_eq_true, if_false] at hr
  have hkd : k ∈ c.dict := by rw [h.dictMem, hm]; rfl
  -- the container after the key has been re-registered
  have hc1 : (Cont.mk (nullAt others c.body) (mapSet nk.key [idx] (mapDel ok.key c.map)) c.dict c.parsed
      c.tableKeys).WF := by
    have := h.keepOne hm (.mk (some ok) old) (by simp [hok]) c.parsed c.tableKeys
    rw [hnk, hok]
    have hset : (nullAt others c.body).set idx (.mk (some ok) old) = nullAt others c.body := by
      apply List.ext_getElem?
      intro j
      rw [List.getElem?_set]
      split
      · rename_i hij; subst hij
        rw [hget, hb, if_pos]
        rw [nullAt_length]; exact (List.getElem?_eq_some_iff.1 hb).1
      · rfl
    rw [hset] at this; exact this
  split at hr
  · rcases h2 : (Cont.mk (nullAt others c.body) (mapSet nk.key [idx] (mapDel ok.key c.map)) c.dict c.parsed
      c.tableKeys).remove ok.key with e | c2 <;> rw [h2] at hr <;> dsimp only at hr
    · cases hr
    have hc2 := hc1.remove_ok h2
    have hnone : mapGet nk.key c2.map = none := by
      unfold Cont.remove at h2
      simp only [Cont.map_mk] at h2
      split at h2
      · cases h2
      · cases h2; simp only [Cont.map_mk]; rw [mapGet_mapDel, hok, hnk, if_pos rfl]
    rcases hft : firstTableFrom c2.body idx with _ | i <;> rw [hft] at hr <;> dsimp only at hr
    · rcases h3 : Cont.append true c2 (some (.single nk)) v with e | ⟨c3, mv⟩ <;> rw [h3] at hr <;> dsimp only at hr
      · cases hr
      have hc3 := hc2.append h3
      rcases hm3 : mapGet nk.key c3.map with _ | is3
      · rw [hm3] at hr; cases hr
      · rw [hm3] at hr
        match is3, hr with
        | [], hr => cases hr
        | [i], hr =>
          cases hr
          exact hc3.finishReplace _ _ _ (by rw [hc3.dictMem, hm3]; rfl)
        | _ :: _ :: _, hr => cases hr
    · rcases h3 : c2.insertAt i nk v with e | c3 <;> rw [h3] at hr <;> simp only [Except.map] at hr
      · cases hr
      · cases hr
        have hc3 := hc2.insertAt (by intro is his; rw [hnone] at his; cases his) h3
        exact hc3.finishReplace _ _ _ (Cont.mem_dict_of_insertAt h3)
  · cases hr
    refine Cont.WF.finishReplace ?_ _ _ _ (by simpa [hnk] using hkd)
    have := h.keepOne hm (.mk (some nk) (if (v.isWhitespace || v.isAoT) = true then v
      else v.setTrivia (copyTrivia old.trivia v.trivia))) (by simp [hnk]) c.parsed c.tableKeys
    rw [hnk, hok]; exact this

theorem Cont.WF.setItem {c : Cont} (h : c.WF) {k : Str} {v : Item} {c' : Cont} (hr : c.setItem k v = .ok c') :
    c'.WF := by
  unfold Cont.setItem at hr
  rcases hh : Cont.has (fuelFor c v) c k with e | b <;> rw [hh] at hr
  · cases hr
  cases b <;> dsimp only at hr
  · rcases h3 : Cont.append true c (some (.single (mkKey k))) v with e | ⟨c3, mv⟩ <;> rw [h3] at hr <;>
      simp only [Except.map] at hr <;> cases hr
    exact h.append h3
  · rcases hm : mapGet k c.map with _ | is <;> rw [hm] at hr <;> dsimp only at hr
    · cases hr
    · exact h.replaceAt hm hr

end Tomlkit
