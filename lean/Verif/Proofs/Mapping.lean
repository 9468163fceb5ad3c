import Verif.Spec.Mapping
import Verif.Proofs.DictRef
/-!
# Lemmas for C44
-/
namespace Tomlkit
open Spec

theorem getItem_of_has {c : Cont} {d : Dict} (h : Is c d) {k : Str} (hk : d.has k = true) :
    ∃ v w, d.get k = some v ∧ c.getItem k = .ok w ∧ IsVal w v := by
  have hm : (mapGet k c.map).isSome = true := by rw [← shows_has h.shows]; exact hk
  rcases hg : mapGet k c.map with _ | is
  · rw [hg] at hm; cases hm
  obtain ⟨i, key, old, rfl, hb, _, _⟩ := single_of_plain h.wf (flat_holds h.flat) hg
  have hr := h.shows.2 k
  have hr' : reads c k = some [old.pyValue] := by unfold reads; rw [hg]; simp [hb]
  rw [hr'] at hr
  refine ⟨old.pyValue, .inl old, ?_, ?_, old, rfl, rfl⟩
  · unfold Dict.get
    rcases hf : d.find? fun p => p.1 == k with _ | p
    · rw [hf] at hr; cases hr
    · rw [hf] at hr
      have : p.2 = old.pyValue := by simpa using hr.symm
      rw [hf]; simp [this]
  · unfold Cont.getItem Cont.item
    rw [hg]
    simp only [hb, Entry.v_mk]

theorem getItem_of_not {c : Cont} {d : Dict} (h : Is c d) {k : Str} (hk : d.has k = false) :
    d.get k = none ∧ c.getItem k = .error .nonExistentKey := by
  have hm : (mapGet k c.map).isSome = false := by rw [← shows_has h.shows]; exact hk
  have hg : mapGet k c.map = none := by simpa using hm
  constructor
  · unfold Dict.get
    have := find_fst d k
    rw [hk] at this
    rcases hf : d.find? fun p => p.1 == k with _ | p
    · rw [hf]; rfl
    · rw [hf] at this; cases this
  · unfold Cont.getItem Cont.item
    rw [hg]

theorem remove_is (hd : Holder) {c : Cont} {d : Dict} (h : Is c d) {k : Str} (hk : d.has k = true) :
    ∃ c', (Op.remove k).run hd c = .ok c' ∧ Is c' (d.del k) :=
  (dict_step hd h (.remove k) trivial).1 _ (by unfold DictOp.onDict; simp only [hk, if_true])

theorem set_is (hd : Holder) {c : Cont} {d : Dict} (h : Is c d) {k : Str} {v : Item} (hv : v.isTableLike = false) :
    ∃ c', (Op.set k v).run hd c = .ok c' ∧ Is c' (d.set k v.pyValue) :=
  (dict_step hd h (.set k v) hv).1 _ rfl

theorem get_set (d : Dict) (k : Str) (v : PyVal) : (d.set k v).get k = some v := by
  unfold Dict.get; rw [find_set_eq]; rfl

theorem has_set (d : Dict) (k : Str) (v : PyVal) : (d.set k v).has k = true := by
  rw [← find_fst, find_set_eq]; rfl

theorem update_is (hd : Holder) {c : Cont} {d : Dict} (h : Is c d) (l : List (Str × Item))
    (hl : ∀ p ∈ l, p.2.isTableLike = false) :
    ∃ c', c.update hd l = .ok c' ∧ Is c' (d.update (l.map fun p => (p.1, p.2.pyValue))) := by
  induction l generalizing c d with
  | nil => exact ⟨c, rfl, h⟩
  | cons p r ih =>
    obtain ⟨c1, h1, h2⟩ := set_is hd h (k := p.1) (hl p (List.mem_cons_self ..))
    obtain ⟨c2, h3, h4⟩ := ih h2 fun q hq => hl q (List.mem_cons_of_mem _ hq)
    refine ⟨c2, ?_, h4⟩
    unfold Cont.update at *
    rw [foldE, h1]
    exact h3

theorem pop_is (hd : Holder) {c : Cont} {d : Dict} (h : Is c d) (k : Str) (df : Bool) :
    (d.has k = true → ∃ c' v w, c.pop hd k df = .ok (c', some w) ∧ d.get k = some v ∧ IsVal w v ∧ Is c' (d.del k)) ∧
    (d.has k = false → c.pop hd k df = if df then .ok (c, none) else .error .nonExistentKey) := by
  constructor
  · intro hk
    obtain ⟨v, w, h1, h2, h3⟩ := getItem_of_has h hk
    obtain ⟨c', h4, h5⟩ := remove_is hd h hk
    refine ⟨c', v, w, ?_, h1, h3, h5⟩
    unfold Cont.pop
    rw [h2]; dsimp only; rw [h4]
  · intro hk
    unfold Cont.pop
    rw [(getItem_of_not h hk).2]
    cases df <;> rfl

theorem setdefault_is (hd : Holder) {c : Cont} {d : Dict} (h : Is c d) (k : Str) (v : Item)
    (hv : v.isTableLike = false) :
    ∃ c' w u, c.setdefault hd k v = .ok (c', w) ∧ IsVal w u ∧ Is c' (if d.has k then d else d.set k v.pyValue) ∧
      (if d.has k then d else d.set k v.pyValue).get k = some u := by
  unfold Cont.setdefault
  rcases hk : d.has k with _ | _
  · obtain ⟨c', h1, h2⟩ := set_is hd h (k := k) hv
    obtain ⟨u, w, h3, h4, h5⟩ := getItem_of_has h2 (has_set d k v.pyValue)
    refine ⟨c', w, u, ?_, h5, h2, h3⟩
    rw [(getItem_of_not h hk).2]
    simp only [Err.isKeyError, if_true, h1, h4]
  · obtain ⟨u, w, h3, h4, h5⟩ := getItem_of_has h hk
    exact ⟨c, w, u, by simp only [h4], h5, h, h3⟩

/-! ## `clear` -/

/-- every key is written in one place -/
def OnePlace (c : Cont) : Prop := ∀ k is, mapGet k c.map = some is → is.length = 1

theorem nullAt_one (i : Nat) (b : List Entry) : nullAt [i] b = b.set i Entry.nullEntry := rfl

/-- the entries without a key -/
def keyless (b : List Entry) : List Entry := b.filter fun e => e.key.isNone

theorem render_null_set {b : List Entry} {i : Nat} {key : SKey} {v : Item} (hb : b[i]? = some (.mk (some key) v)) :
    bodyStr (keyless (b.set i Entry.nullEntry)) = bodyStr (keyless b) := by
  induction b generalizing i with
  | nil => cases hb
  | cons e r ih =>
    rcases i with _ | i
    · rw [List.getElem?_cons_zero] at hb
      cases hb
      rfl
    · rw [List.getElem?_cons_succ] at hb
      rw [List.set_cons_succ]
      unfold keyless at *
      rw [List.filter_cons, List.filter_cons]
      split
      · rw [bodyStr, bodyStr, ih hb]
      · exact ih hb

theorem keyless_all {c : Cont} (hw : c.WF) (h : c.dict = []) : keyless c.body = c.body := by
  unfold keyless
  rw [List.filter_eq_self]
  intro e he
  rcases hk : e.key with _ | k
  · rfl
  · exfalso
    obtain ⟨i, hi⟩ := List.mem_iff_getElem?.1 he
    have := (consistent_of_WF hw).keys.2 k.key
    rw [h] at this
    exact absurd (this.2 ⟨i, e.v, k, by rw [hi, ← hk]; cases e; rfl, rfl⟩) (by simp)

theorem clear_loop (hd : Holder) (n : Nat) (c : Cont) (hw : c.WF) (h1 : OnePlace c) (hn : c.dict.length < n) :
    ∃ c', c.clearLoop hd n = .ok c' ∧ c'.WF ∧ c'.dict = [] ∧ c'.map = [] ∧
      bodyStr (keyless c'.body) = bodyStr (keyless c.body) ∧
      ∀ e ∈ c'.body, e ∈ c.body ∨ e = Entry.nullEntry := by
  induction n generalizing c with
  | zero => omega
  | succ n ih =>
    rw [Cont.clearLoop]
    unfold Cont.popitem
    rcases hd' : c.dict with _ | ⟨k, r⟩
    · dsimp only
      refine ⟨c, rfl, hw, hd', ?_, rfl, fun e he => .inl he⟩
      rcases hm : c.map with _ | ⟨⟨k, is⟩, m⟩
      · rfl
      · have : mapGet k c.map = some is := by rw [hm]; simp [mapGet]
        have := (hw.dictMem k).2 (by rw [this]; rfl)
        rw [hd'] at this; cases this
    · dsimp only
      have hk : (mapGet k c.map).isSome := (hw.dictMem k).1 (by rw [hd']; exact List.mem_cons_self ..)
      rcases hg : mapGet k c.map with _ | is
      · rw [hg] at hk; cases hk
      have hl := h1 k is hg
      rcases is with _ | ⟨i, _ | ⟨j, s⟩⟩
      · cases hl
      · obtain ⟨v, key, hb, hkk⟩ := (consistent_of_WF hw).cached k _ hg i (List.mem_cons_self ..)
        have hgi : c.getItem k = .ok (.inl v) := by
          unfold Cont.getItem Cont.item
          rw [hg]; simp only [hb, Entry.v_mk]
        have hr : (Op.remove k).run hd c = .ok (.mk (nullAt [i] c.body) (mapDel k c.map) (dictDel k c.dict) c.parsed c.tableKeys) := by
          show c.remove k = _
          unfold Cont.remove
          rw [hg]
        rw [hgi]; dsimp only; rw [hr]; dsimp only
        have hnd := (consistent_of_WF hw).keys.1
        have hrest : dictDel k c.dict = r := by
          unfold dictDel
          rw [hd'] at hnd ⊢
          rw [List.filter_cons]
          simp only [beq_self_eq_true, Bool.not_true, Bool.false_eq_true, if_false]
          rw [List.filter_eq_self]
          intro x hx
          have hne : x ≠ k := fun h => (List.nodup_cons.1 hnd).1 (h ▸ hx)
          simpa using hne
        have hw' := hw.remove_ok (k := k) hr
        obtain ⟨c', h2, h3, h4, h5, h6, h7⟩ := ih _ hw' (by
          intro k' is' hk'
          rw [Cont.map_mk, mapGet_mapDel] at hk'
          split at hk'
          · cases hk'
          · exact h1 k' is' hk') (by rw [Cont.dict_mk, hrest]; rw [hd'] at hn; simp at hn; omega)
        refine ⟨c', h2, h3, h4, h5, ?_, ?_⟩
        · rw [h6, Cont.body_mk, nullAt_one]; exact render_null_set hb
        · intro e he
          rcases h7 e he with he | he
          · rw [Cont.body_mk, nullAt_one] at he
            rcases List.mem_or_eq_of_mem_set he with he | he
            · exact .inl he
            · exact .inr he
          · exact .inr he
      · simp at hl

end Tomlkit
