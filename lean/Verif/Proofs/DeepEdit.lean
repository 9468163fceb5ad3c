import Verif.Model.Ops
import Verif.Proofs.Consist
/-!
# Editing operations keep every container consistent
-/
namespace Tomlkit

local notation "GC" => Cont.Good Cont.WF
local notation "GI" => Item.Good Cont.WF

theorem gc_iff (c : Cont) : GC c ↔ c.WF ∧ ∀ e ∈ c.body, GI e.v := Cont.good_iff c

theorem remove_deep {c : Cont} (h : GC c) {k : Str} {c' : Cont} (hr : c.remove k = .ok c') : GC c' := by
  rw [gc_iff] at *
  refine ⟨h.1.remove_ok hr, ?_⟩
  unfold Cont.remove at hr
  split at hr
  · cases hr
  · cases hr; exact nullAt_good h.2

theorem set_bodyGood {b : List Entry} {i : Nat} {key : Option SKey} {v : Item} (h : ∀ e ∈ b, GI e.v) (hv : GI v) :
    ∀ e ∈ b.set i (.mk key v), GI e.v := by
  intro e he
  rcases List.mem_or_eq_of_mem_set he with h1 | rfl
  · exact h e h1
  · exact hv

theorem removeAt_deep {c : Cont} (h : GC c) {i : Nat} {c' : Cont} (hr : c.removeAt i = .ok c') : GC c' := by
  rw [gc_iff] at *
  refine ⟨h.1.removeAt hr, ?_⟩
  unfold Cont.removeAt at hr
  split at hr
  · cases hr
  · split at hr
    · cases hr
    · split at hr
      · cases hr
      · dsimp only at hr
        split at hr <;> cases hr
        all_goals exact set_bodyGood h.2 trivial

theorem addBlankLine_good {tb : Tbl} (h : Tbl.Good Cont.WF tb) : Tbl.Good Cont.WF tb.addBlankLine := by
  unfold Tbl.addBlankLine
  rw [Tbl.setCont_good]
  rw [Tbl.good_iff, gc_iff] at h
  rw [gc_iff]
  refine ⟨?_, ?_⟩
  · have := WFs.append_none h.1 false
    rw [Cont.WF_mk, List.map_append]
    exact this
  · intro e he
    rw [Cont.body_mk, List.mem_append, List.mem_singleton] at he
    rcases he with he | rfl
    · exact h.2 e he
    · trivial

theorem finishReplace_bodyGood {c : Cont} (h : ∀ e ∈ c.body, GI e.v) (old : Item) (nk : SKey) (i : Nat) :
    ∀ e ∈ (c.finishReplace old nk i).body, GI e.v := by
  have h0 : ∀ e ∈ c.body.modify i fun e => .mk e.key e.v.invalidate, GI e.v := by
    intro e he
    rcases mem_modify_of he with h1 | ⟨x, hx, rfl⟩
    · exact h e h1
    · exact Item.invalidate_good closed_WF _ (h x hx)
  unfold Cont.finishReplace
  dsimp only
  split
  · rename_i tb htb
    obtain ⟨e0, he0, hev⟩ := Option.map_eq_some_iff.1 htb
    have hg := h0 e0 (List.mem_of_getElem? he0)
    rw [hev] at hg
    rw [Cont.body_mk]
    split
    · intro e he
      rcases mem_modify_of he with h1 | ⟨x, hx, rfl⟩
      · exact h0 e h1
      · exact addBlankLine_good hg
    · exact h0
  · exact h0

theorem nullAt_comm (is : List Nat) (i : Nat) (b : List Entry) : nullAt is (b.set i Entry.nullEntry) =
    (nullAt is b).set i Entry.nullEntry := by
  apply List.ext_getElem?
  intro j
  rw [nullAt_get, List.getElem?_set, List.getElem?_set, nullAt_get, nullAt_length]
  by_cases hij : i = j
  · subst hij
    by_cases h1 : i < b.length
    · simp [h1]
    · simp [h1]
  · simp [hij]

theorem mapDel_mapSet (k : Str) (v : List Nat) (m : List (Str × List Nat)) (h : ∀ p ∈ m, p.1 ≠ k) :
    mapDel k (mapSet k v m) = m := by
  induction m with
  | nil => simp [mapSet, mapDel]
  | cons p r ih =>
    have h1 := h p (List.mem_cons_self ..)
    have ih := ih fun q hq => h q (List.mem_cons_of_mem _ hq)
    simp only [mapSet]
    rw [if_neg (by simpa using h1)]
    unfold mapDel at ih ⊢
    rw [List.filter_cons, if_pos (by simpa using h1), ih]

theorem mapDel_ne (k : Str) (m : List (Str × List Nat)) : ∀ p ∈ mapDel k m, p.1 ≠ k := by
  intro p hp
  unfold mapDel at hp
  simpa using (List.mem_filter.1 hp).2

/-- the value written by a replacement, with the trivia of the old one -/
def retrivia (v old : Item) : Item :=
  if v.isWhitespace || v.isAoT then v else v.setTrivia (copyTrivia old.trivia v.trivia)

/-- the two ways a replacement can go -/
inductive Replaced (c : Cont) (k : Str) (v : Item) (c' : Cont) : Prop
  | inPlace (idx : Nat) (others : List Nat) (ok : SKey) (old : Item) (hm : mapGet k c.map = some (idx :: others))
      (hb : c.body[idx]? = some (.mk (some ok) old)) (hok : ok.key = k) (hd : v.isTableLike = old.isTableLike)
      (hc : c' = (Cont.mk ((nullAt others c.body).set idx (.mk (some ok) (retrivia v old)))
        (mapSet k [idx] (mapDel k c.map)) c.dict c.parsed c.tableKeys).finishReplace old ok idx)
  | before (idx : Nat) (others : List Nat) (ok : SKey) (old : Item) (hm : mapGet k c.map = some (idx :: others))
      (hb : c.body[idx]? = some (.mk (some ok) old)) (hok : ok.key = k) (hd : v.isTableLike ≠ old.isTableLike)
      (c2 : Cont) (h2 : c.remove k = .ok c2) (i : Nat) (hi : firstTableFrom c2.body idx = some i) (c3 : Cont)
      (h3 : c2.insertAt i (mkKey k) v = .ok c3) (hc : c' = c3.finishReplace old (mkKey k) i)
  | anew (idx : Nat) (others : List Nat) (ok : SKey) (old : Item) (hm : mapGet k c.map = some (idx :: others))
      (hb : c.body[idx]? = some (.mk (some ok) old)) (hok : ok.key = k) (hd : v.isTableLike ≠ old.isTableLike)
      (c2 : Cont) (h2 : c.remove k = .ok c2) (hi : firstTableFrom c2.body idx = none) (c3 : Cont) (mv : Bool)
      (h3 : Cont.append true c2 (some (.single (mkKey k))) v = .ok (c3, mv)) (i : Nat)
      (hi3 : mapGet k c3.map = some [i]) (hc : c' = c3.finishReplace old (mkKey k) i)

theorem replaceAt_cases {c : Cont} (h : c.WF) {k : Str} {is : List Nat} (hm : mapGet k c.map = some is) {v : Item}
    {c' : Cont} (hr : c.replaceAt is k v = .ok c') : Replaced c k v c' := by
  have hidx := h.idx
  rw [shape_names] at hidx
  unfold Cont.replaceAt at hr
  rcases is with _ | ⟨idx, others⟩
  · cases hr
  dsimp only at hr
  have hne : idx ∉ others := by
    have := (hidx.ok _ _ hm).2
    rw [List.nodup_cons] at this; exact this.1
  have hat := hidx.at hm (List.mem_cons_self ..)
  have hget : (nullAt others c.body)[idx]? = c.body[idx]? := by rw [nullAt_get, if_neg hne]
  rw [hget] at hr
  rcases hb : c.body[idx]? with _ | ⟨_ | ok, old⟩ <;> rw [hb] at hr <;> dsimp only at hr
  · cases hr
  · cases hr
  have hok : ok.key = k := by
    rw [List.getElem?_map, hb] at hat
    simpa using hat
  have hkk : (k != ok.key) = false := by simp [hok]
  simp only [hkk, Bool.or_false] at hr
  by_cases hd : v.isTableLike = old.isTableLike
  · rw [if_neg (by simp [hd])] at hr
    simp only [hd, bne_self_eq_false, Bool.false_eq_true, if_false] at hr
    rw [hok] at hr
    cases hr
    exact .inPlace idx others ok old hm hb hok hd rfl
  · have hd' : (v.isTableLike != old.isTableLike) = true := by simp [hd]
    simp only [hd', if_true, mkKey_key, hok, bne_self_eq_false, Bool.false_eq_true, if_false] at hr
    have hrem : (Cont.mk (nullAt others c.body) (mapSet k [idx] (mapDel k c.map)) c.dict c.parsed
        c.tableKeys).remove k = c.remove k := by
      unfold Cont.remove
      rw [Cont.map_mk, mapGet_mapSet, if_pos rfl, hm]
      simp only [Cont.body_mk, Cont.dict_mk, Cont.parsed_mk, Cont.tableKeys_mk]
      rw [mapDel_mapSet _ _ _ (mapDel_ne k c.map)]
      show Except.ok (Cont.mk ((nullAt others c.body).set idx Entry.nullEntry) _ _ _ _) = _
      rw [← nullAt_comm]; rfl
    rw [hrem] at hr
    rcases h2 : c.remove k with e | c2 <;> rw [h2] at hr <;> dsimp only at hr
    · cases hr
    rcases hft : firstTableFrom c2.body idx with _ | i <;> rw [hft] at hr <;> dsimp only at hr
    · rcases h3 : Cont.append true c2 (some (.single (mkKey k))) v with e | ⟨c3, mv⟩ <;> rw [h3] at hr <;> dsimp only at hr
      · cases hr
      rcases hm3 : mapGet k c3.map with _ | is3
      · rw [hm3] at hr; cases hr
      · rw [hm3] at hr
        match is3, hr with
        | [], hr => cases hr
        | [i], hr =>
          cases hr
          exact .anew idx others ok old hm hb hok hd c2 h2 hft c3 mv h3 i hm3 rfl
        | _ :: _ :: _, hr => cases hr
    · rcases h3 : c2.insertAt i (mkKey k) v with e | c3 <;> rw [h3] at hr <;> simp only [Except.map] at hr <;> cases hr
      exact .before idx others ok old hm hb hok hd c2 h2 i hft c3 h3 rfl

theorem replaceAt_deep {c : Cont} (h : GC c) {k : Str} {is : List Nat} (hm : mapGet k c.map = some is) {v : Item}
    (hv : GI v) {c' : Cont} (hr : c.replaceAt is k v = .ok c') : GC c' := by
  have h' := (gc_iff c).1 h
  rw [gc_iff]
  refine ⟨h'.1.replaceAt hm hr, ?_⟩
  cases replaceAt_cases h'.1 hm hr with
  | inPlace idx others ok old hm hb hok hd hc =>
    subst hc
    apply finishReplace_bodyGood
    apply set_bodyGood (nullAt_good h'.2)
    unfold retrivia
    split
    · exact hv
    · exact (Item.setTrivia_good _ _).2 hv
  | before idx others ok old hm hb hok hd c2 h2 i hi c3 h3 hc =>
    subst hc
    apply finishReplace_bodyGood
    exact insertAt_bodyGood ((gc_iff c2).1 (remove_deep h h2)).2 hv h3
  | anew idx others ok old hm hb hok hd c2 h2 hi c3 mv h3 i hi3 hc =>
    subst hc
    apply finishReplace_bodyGood
    exact ((gc_iff c3).1 (append_good closed_WF (remove_deep h h2) hv h3)).2

theorem setItem_deep {c : Cont} (h : GC c) {k : Str} {v : Item} (hv : GI v) {c' : Cont} (hr : c.setItem k v = .ok c') :
    GC c' := by
  unfold Cont.setItem at hr
  rcases hh : Cont.has (fuelFor c v) c k with e | b <;> rw [hh] at hr
  · cases hr
  cases b <;> dsimp only at hr
  · rcases h3 : Cont.append true c (some (.single (mkKey k))) v with e | ⟨c3, mv⟩ <;> rw [h3] at hr <;>
      simp only [Except.map] at hr <;> cases hr
    exact append_good closed_WF h hv h3
  · rcases hm : mapGet k c.map with _ | is <;> rw [hm] at hr <;> dsimp only at hr
    · cases hr
    · exact replaceAt_deep h hm hv hr

theorem setTriviaAt_deep {c : Cont} (h : GC c) (i : Nat) (f : Trivia → Trivia) :
    GC (.mk (setTriviaAt i f c.body) c.map c.dict c.parsed c.tableKeys) := by
  rw [gc_iff] at *
  refine ⟨h.1.of_shape (setTriviaAt_shape i f c.body) _ _, ?_⟩
  intro e he
  unfold setTriviaAt at he
  rcases mem_modify_of he with h1 | ⟨x, hx, rfl⟩
  · exact h.2 e h1
  · exact (Item.setTrivia_good _ _).2 (h.2 x hx)

theorem setItemIndented_deep {c : Cont} (h : GC c) {ind k : Str} {v : Item} (hv : GI v) {c' : Cont}
    (hr : c.setItemIndented ind k v = .ok c') : GC c' := by
  unfold Cont.setItemIndented at hr
  rcases hh : Cont.has (fuelFor c v) c k with e | b <;> rw [hh] at hr <;> dsimp only at hr
  · cases hr
  rcases h1 : c.setItem k v with e | c1 <;> rw [h1] at hr <;> dsimp only at hr
  · cases hr
  have hd := setItem_deep h hv h1
  split at hr
  · cases hr; exact hd
  · split at hr
    · cases hr; exact hd
    · split at hr <;> cases hr
      exact setTriviaAt_deep hd _ _

theorem append_deep {c : Cont} (h : GC c) {key : Option Key} {v : Item} (hv : GI v) {c' : Cont}
    (hr : (Cont.append true c key v).map Prod.fst = .ok c') : GC c' := by
  rcases h3 : Cont.append true c key v with e | ⟨c3, mv⟩ <;> rw [h3] at hr <;> simp only [Except.map] at hr <;> cases hr
  exact append_good closed_WF h hv h3

theorem tableAppendKey_deep {t : Trivia} {c : Cont} (h : GC c) {key : Option Key} {v : Item} (hv : GI v) {c' : Cont}
    (hr : tableAppendKey t c key v = .ok c') : GC c' := by
  unfold tableAppendKey at hr
  rcases h3 : Cont.append true c key v with e | ⟨c3, mv⟩ <;> rw [h3] at hr <;> dsimp only at hr
  · cases hr
  have hd := append_good closed_WF h hv h3
  split at hr
  · cases hr
  split at hr
  · cases hr; exact hd
  split at hr
  · cases hr
  split at hr
  · cases hr; exact hd
  split at hr
  · cases hr
  · cases hr; exact setTriviaAt_deep hd _ _

theorem tableAppendStr_deep {t : Trivia} {c : Cont} (h : GC c) {k : Str} {v : Item} (hv : GI v) {c' : Cont}
    (hr : tableAppendStr t c k v = .ok c') : GC c' := by
  unfold tableAppendStr at hr
  rcases h3 : Cont.append true c (some (.single (mkKey k))) v with e | ⟨c3, mv⟩ <;> rw [h3] at hr <;> dsimp only at hr
  · cases hr
  have hd := append_good closed_WF h hv h3
  split at hr
  · cases hr; exact hd
  split at hr
  · cases hr; exact hd
  split at hr <;> cases hr
  exact setTriviaAt_deep hd _ _

theorem inlineAppend_deep {new : Bool} {c : Cont} (h : GC c) {key : Option SKey} {v : Item} (hv : GI v) {c' : Cont}
    (hr : inlineAppend new c key v = .ok c') : GC c' := by
  unfold inlineAppend at hr
  refine append_deep h ?_ hr
  split
  · exact hv
  · refine (Item.setTrivia_good _ _).2 ?_
    split
    · exact (Item.setTrivia_good _ _).2 hv
    · exact hv

/-- the item an operation brings in -/
def Op.item? : Op → Option Item
  | .set _ v | .append _ v | .appendKey _ v | .add v => some v
  | .remove _ => none

theorem run_deep {h : Holder} {c c' : Cont} {op : Op} (hc : GC c) (hv : ∀ v, op.item? = some v → GI v)
    (hr : op.run h c = .ok c') : GC c' := by
  rcases op with ⟨k, v⟩ | ⟨k, v⟩ | ⟨key, v⟩ | v | k
  case set =>
    have hv := hv v rfl
    rcases h with _ | t | ⟨t, new⟩
    · exact setItem_deep hc hv hr
    · exact setItemIndented_deep hc hv hr
    · unfold Op.run inlineSetItem at hr
      refine setItemIndented_deep hc ?_ hr
      split
      · exact hv
      · exact (Item.setTrivia_good _ _).2 hv
  case append =>
    have hv := hv v rfl
    rcases h with _ | t | ⟨t, new⟩
    · exact append_deep hc hv hr
    · exact tableAppendStr_deep hc hv hr
    · exact inlineAppend_deep hc hv hr
  case appendKey =>
    replace hv := hv v rfl
    rcases h with _ | t | ⟨t, new⟩
    · exact append_deep hc hv hr
    · exact tableAppendKey_deep hc hv hr
    · rcases key with k | _
      · exact inlineAppend_deep hc hv hr
      · cases hr
  case add =>
    have hv := hv v rfl
    unfold Op.run at hr
    dsimp only at hr
    split at hr
    · rcases h with _ | t | ⟨t, new⟩
      · exact append_deep hc hv hr
      · exact tableAppendKey_deep hc hv hr
      · exact inlineAppend_deep hc hv hr
    · cases hr
  case remove => exact remove_deep hc hr

theorem write_deep {c : Cont} (h : GC c) {i : Nat} {key : Option SKey} {v w : Item} (hb : c.body[i]? = some (.mk key v))
    (hw : w.isTable = v.isTable) (hg : GI w) :
    GC (.mk (c.body.set i (.mk key w)) c.map c.dict c.parsed c.tableKeys) := by
  rw [gc_iff] at *
  refine ⟨h.1.of_shape ?_ _ _, set_bodyGood h.2 hg⟩
  apply map_set_same
  rw [hb]; simp [hw]

theorem tableAt_some {b : List Entry} {i : Nat} {key : Option SKey} {tb : Tbl} (h : tableAt b i = some (key, tb)) :
    b[i]? = some (.mk key (.table tb)) := by
  unfold tableAt at h
  split at h
  · rename_i hb; cases h; exact hb
  · cases h

theorem proxySet_deep {c c' : Cont} (hc : GC c) {is : List Nat} {k : Str} {v : Item} (hv : GI v)
    (hr : proxySet c is k v = .ok c') : GC c' := by
  unfold proxySet at hr
  split at hr
  · cases hr
  split at hr
  · cases hr
  split at hr
  · cases hr
  split at hr
  · cases hr
  · rename_i i _ key tb ht
    have hb := tableAt_some ht
    rcases hx : tb.cont.setItemIndented tb.trivia.indent k v with e | c1 <;> rw [hx] at hr <;>
      simp only [Except.map] at hr <;> cases hr
    exact write_deep hc hb rfl ((Tbl.setCont_good _ _).2 (setItemIndented_deep ((Tbl.good_iff _).1 (good_at hc hb)) hv hx))

theorem proxyRemove_deep {c c' : Cont} (hc : GC c) {is : List Nat} {k : Str}
    (hr : proxyRemove c is k = .ok c') : GC c' := by
  unfold proxyRemove at hr
  split at hr
  · cases hr
  split at hr
  · cases hr
  split at hr
  · cases hr
  · rename_i i _ key tb ht
    have hb := tableAt_some ht
    rcases hx : tb.cont.remove k with e | c1 <;> rw [hx] at hr <;> dsimp only at hr
    · cases hr
    have hg := write_deep hc hb (w := .table (tb.setCont c1)) rfl
      ((Tbl.setCont_good _ _).2 (remove_deep ((Tbl.good_iff _).1 (good_at hc hb)) hx))
    split at hr
    · exact removeAt_deep hg hr
    · cases hr; exact hg

theorem runProxy_deep {c c' : Cont} {op : Op} (hc : GC c) (hv : ∀ v, op.item? = some v → GI v) {is : List Nat}
    (hr : op.runProxy c is = .ok c') : GC c' := by
  rcases op with ⟨k, v⟩ | ⟨k, v⟩ | ⟨key, v⟩ | v | k
  · exact proxySet_deep hc (hv v rfl) hr
  · cases hr
  · cases hr
  · cases hr
  · exact proxyRemove_deep hc hr

theorem atPath_deep {op : Op} (hv : ∀ v, op.item? = some v → GI v)
    (path : List Step) : ∀ {h : Holder} {c c' : Cont}, GC c → Cont.atPath op path h c = .ok c' → GC c' := by
  induction path with
  | nil => intro h c c' hc hr; exact run_deep hc hv hr
  | cons s r ih =>
    intro h c c' hc hr
    rcases s with k | ⟨k, j⟩ <;> unfold Cont.atPath at hr
    · split at hr
      · cases hr
      · rename_i i hi
        split at hr
        · rename_i key tb hb
          rcases hx : Cont.atPath op r (.table tb.trivia) tb.cont with e | c1 <;> rw [hx] at hr <;>
            simp only [Except.map] at hr <;> cases hr
          have hg := good_at hc hb
          exact write_deep hc hb rfl ((Tbl.setCont_good _ _).2 (ih ((Tbl.good_iff _).1 hg) hx))
        · rename_i key ci t new hb
          rcases hx : Cont.atPath op r (.inline t new) ci with e | c1 <;> rw [hx] at hr <;>
            simp only [Except.map] at hr <;> cases hr
          have hg := good_at hc hb
          exact write_deep hc hb rfl (ih (c := ci) hg hx)
        · cases hr
        · cases hr
      · split at hr
        · exact runProxy_deep hc hv hr
        · cases hr
    · split at hr
      · cases hr
      · rename_i i hi
        split at hr
        · rename_i key ts t nm p hb
          split at hr
          · rename_i tb htb
            rcases hx : Cont.atPath op r (.table tb.trivia) tb.cont with e | c1 <;> rw [hx] at hr <;>
              simp only [Except.map] at hr <;> cases hr
            have hg := (Item.good_aot _ _ _ _).1 (good_at hc hb)
            refine write_deep hc hb rfl ((Item.good_aot _ _ _ _).2 ?_)
            intro t' ht'
            rcases List.mem_or_eq_of_mem_set ht' with h1 | rfl
            · exact hg t' h1
            · exact (Tbl.setCont_good _ _).2 (ih ((Tbl.good_iff _).1 (hg tb (List.mem_of_getElem? htb))) hx)
          · cases hr
        · cases hr
        · cases hr
      · cases hr

theorem history_deep {c c' : Cont} {ops : List (List Step × Op)} (hc : GC c)
    (hv : ∀ p ∈ ops, ∀ v, p.2.item? = some v → GI v) (hr : c.history ops = .ok c') : GC c' := by
  unfold Cont.history at hr
  refine foldE_inv (fun c => GC c) hc ?_ hr
  intro c p c' hp hc hr
  exact atPath_deep (hv p hp) p.1 hc hr

end Tomlkit
