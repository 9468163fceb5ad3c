import Verif.Proofs.Above
import Verif.Proofs.OverEdit
import Verif.Proofs.Enough
import Verif.Proofs.NearData
import Verif.Proofs.ParsedRows
import Verif.Props.FlatEdits
/-!
# The data of lines above tables
-/
namespace Tomlkit
open _root_.Spec Tomlkit.Spec

theorem edit_wf {c c' : Cont} (h : c.WF) {e : Edit} (hr : e.run c = .ok c') : c'.WF := by
  have happ : ∀ {key : Option Key} {v : Item}, (Cont.append true c key v).map Prod.fst = .ok c' → c'.WF := by
    intro key v hx
    rcases ha : Cont.append true c key v with x | ⟨c1, mv⟩ <;> rw [ha] at hx <;> cases hx
    exact h.append ha
  cases e with
  | set k w p =>
    unfold Edit.run at hr
    dsimp only at hr
    rcases hv : w.toItem false p with x | v <;> rw [hv] at hr
    · cases hr
    · exact h.setItem hr
  | add k w p =>
    unfold Edit.run at hr
    dsimp only at hr
    rcases hv : w.toItem false p with x | v <;> rw [hv] at hr
    · cases hr
    · exact happ hr
  | remove k => exact h.remove_ok hr
  | comment s =>
    unfold Edit.run Op.run at hr
    dsimp only at hr
    split at hr
    · exact happ hr
    · cases hr
  | nl =>
    unfold Edit.run Op.run at hr
    dsimp only at hr
    split at hr
    · exact happ hr
    · cases hr
  | note k s =>
    unfold Edit.run Cont.note at hr
    dsimp only at hr
    rcases hm : mapGet k c.map with _ | is <;> rw [hm] at hr
    · cases hr
    · match is, hm, hr with
      | [], _, hr => cases hr
      | [i], hm, hr =>
        cases hr
        refine h.of_shape ?_ _ _
        rcases hb : c.body[i]? with _ | e
        · rw [List.modify_eq_self (by rw [List.getElem?_eq_none_iff] at hb; omega)]
        · rw [modify_set hb]
          apply map_set_same
          rw [hb]
          have : (e.v.withComment s).isTable = e.v.isTable := by
            unfold Item.withComment; rcases e.v with _ | _ | _ | _ | _ | _ | _ | _ | _ | _ | _ | tb | ⟨ts, t, nm, p⟩ | _ <;> rfl
          simp [Entry.shape, Entry.name, this]
      | _ :: _ :: _, _, hr => cases hr

theorem docAfter_wf {c : Cont} (h : c.WF) (es : List Edit) : (docAfter c es).WF := by
  induction es generalizing c with
  | nil => exact h
  | cons e r ih =>
    rw [docAfter]
    rcases hr : e.run c with x | c'
    · exact ih h
    · exact ih (edit_wf h hr)

variable {c t d : Cont}

/-- what a table reads does not depend on the lines above -/
theorem Over.unwrapTable (h : Over c t d) (ht : t.Good Cont.WF) {k : Str} (hk : mapGet k c.map = none) (n : Nat) :
    unwrapKey n d k = unwrapKey n t k := by
  rcases n with _ | n
  · rw [unwrapKey, unwrapKey]
  rw [unwrapKey, unwrapKey]
  unfold Cont.item
  rw [h.below k hk]
  rcases hm : mapGet k t.map with _ | is
  · rfl
  · have hwf := ((Cont.good_iff _).1 ht).1
    have hp : Cont.mkProxy (fuelFor d (.null {})) d (is.map (· + c.body.length)) = Cont.mkProxy (fuelFor t (.null {})) t is := by
      rw [h.proxy]
      have hle : fuelFor t (.null {}) ≤ fuelFor d (.null {}) := by
        unfold fuelFor
        rw [Cont.size_bsz, Cont.size_bsz, h.body, bsz_append]
        omega
      rcases (append_stable _ _ hle).2.2.1 t is with h0 | h0
      · exact absurd rfl ((append1_enough _).2.2.1 ht hm (by unfold fuelFor; omega) h0)
      · exact h0
    match is, hm, hp with
    | [], _, hp => dsimp only [Option.map, List.map] at hp ⊢; rw [hp]
    | [i], _, _ =>
      dsimp only [Option.map, List.map]
      rw [h.body, over_at]
      rcases t.body[i]? with _ | e <;> rfl
    | a :: b :: r, _, hp => dsimp only [Option.map, List.map] at hp ⊢; rw [hp]

/-- what a line reads does not depend on the tables below -/
theorem Over.itemLine (h : Over c t d) {k : Str} {i : Item} (hi : c.item k = .ok (.inl i)) : d.item k = .ok (.inl i) := by
  obtain ⟨j, e, hm, hb, rfl⟩ := item_single.1 hi
  refine item_single.2 ⟨j, e, (h.line k _ hm).1, ?_, rfl⟩
  rw [h.body, List.getElem?_append_left (List.getElem?_eq_some_iff.1 hb).1]
  exact hb

/-- reading the keys one by one -/
theorem keys_unwrap {c : Cont} (f : Str → PyVal → Prop) (ks : List Str) (h : ∀ k ∈ ks, ∃ w, f k w ∧ ∃ n0, ∀ n ≥ n0, unwrapKey n c k = .ok w) :
    ∃ l, (∃ n0, ∀ n ≥ n0, unwrapKeys n c ks = .ok l) ∧ l.map PyPair.key = ks ∧ ∀ k w, PyPair.mk k w ∈ l → f k w := by
  induction ks with
  | nil => exact ⟨[], ⟨1, fun n hn => by
      obtain ⟨m, rfl⟩ : ∃ m, n = m + 1 := ⟨n - 1, by omega⟩
      rw [unwrapKeys]⟩, rfl, (by intro k w h; cases h)⟩
  | cons k r ih =>
    obtain ⟨l, ⟨n1, h1⟩, h2, h3⟩ := ih fun k hk => h k (by simp [hk])
    obtain ⟨w, hf, n2, q2⟩ := h k (by simp)
    refine ⟨.mk k w :: l, ⟨n1 + n2 + 2, fun n hn => ?_⟩, by rw [List.map_cons, h2]; rfl, ?_⟩
    · obtain ⟨m, rfl⟩ : ∃ m, n = m + 1 := ⟨n - 1, by omega⟩
      rw [unwrapKeys, q2 m (by omega), h1 m (by omega)]
      rfl
    · intro k' w' hk
      rcases List.mem_cons.1 hk with h0 | h0
      · cases h0; exact hf
      · exact h3 k' w' h0

/-- the converse -/
theorem unwrapKeys_inv {n : Nat} {c : Cont} : ∀ {ks : List Str} {l : List PyPair}, unwrapKeys n c ks = .ok l → l.map PyPair.key = ks ∧
    ∀ k w, PyPair.mk k w ∈ l → ∃ m, unwrapKey m c k = .ok w := by
  induction n with
  | zero => intro ks l h; rw [unwrapKeys] at h; cases h
  | succ n ih =>
    intro ks l h
    rcases ks with _ | ⟨k, r⟩
    · rw [unwrapKeys] at h; cases h; exact ⟨rfl, by intro k w h; cases h⟩
    · rw [unwrapKeys] at h
      rcases hv : unwrapKey n c k with x | v <;> rw [hv] at h
      · cases h
      rcases hr : unwrapKeys n c r with x | m <;> rw [hr] at h <;> cases h
      obtain ⟨h1, h2⟩ := ih hr
      refine ⟨by rw [List.map_cons, h1]; rfl, fun k' w hk => ?_⟩
      rcases List.mem_cons.1 hk with h0 | h0
      · cases h0; exact ⟨n, hv⟩
      · exact h2 k' w h0

theorem nodup_length_le {l : List Str} (hl : l.Nodup) : ∀ {m : List Str}, (∀ k ∈ l, k ∈ m) → l.length ≤ m.length := by
  induction l with
  | nil => intro m _; exact Nat.zero_le _
  | cons a r ih =>
    intro m h
    have ha := h a (by simp)
    have := ih (List.nodup_cons.1 hl).2 (m := m.erase a) fun k hk => by
      refine (List.mem_erase_of_ne ?_).2 (h k (by simp [hk]))
      rintro rfl
      exact (List.nodup_cons.1 hl).1 hk
    rw [List.length_erase_of_mem ha] at this
    have := List.length_pos_of_mem ha
    rw [List.length_cons]
    omega

theorem nodup_length {l m : List Str} (hl : l.Nodup) (hm : m.Nodup) (h : ∀ k, k ∈ l ↔ k ∈ m) : l.length = m.length :=
  Nat.le_antisymm (nodup_length_le hl fun k hk => (h k).1 hk) (nodup_length_le hm fun k hk => (h k).2 hk)

/-- the same dict, whatever the order -/
theorem same_dict {D l : List PyPair} (hD : (D.map PyPair.key).Nodup) (hl : (l.map PyPair.key).Nodup) (hk : ∀ k, k ∈ D.map PyPair.key ↔ k ∈ l.map PyPair.key)
    (hs : ∀ k w, PyPair.mk k w ∈ l → ∃ v, PyPair.mk k v ∈ D ∧ Same v w) : Same (.dict D) (.dict l) := by
  unfold Same
  refine ⟨l, rfl, ?_, sameIn_of fun k v hv => ?_⟩
  · have := nodup_length hD hl hk
    simpa using this
  · obtain ⟨p, hp, hpk⟩ := List.mem_map.1 ((hk k).1 (List.mem_map_of_mem (f := PyPair.key) hv))
    obtain ⟨k', w⟩ := p
    have : k' = k := hpk
    subst this
    obtain ⟨v', h1, h2⟩ := hs _ _ hp
    rw [pair_unique hD hv h1]
    exact ⟨w, hp, h2⟩

/-- The data of a container of lines over tables. -/
theorem Over.unwrap (h : Over c t d) (ht : t.Good Cont.WF) (hcw : c.WF) (hdw : d.WF) {I W : List PyPair}
    (hI : (I.map PyPair.key).Nodup) (hW : (W.map PyPair.key).Nodup)
    (hc : ∀ k, k ∈ I.map PyPair.key ↔ k ∈ c.dict) (ht' : ∀ k, k ∈ W.map PyPair.key ↔ k ∈ t.dict)
    (hl : ∀ k w, PyPair.mk k w ∈ I → ∃ i, c.item k = .ok (.inl i) ∧ Worth w i)
    (hw : ∀ k w, PyPair.mk k w ∈ W → ∃ n, unwrapKey n t k = .ok w) :
    ∃ w, (∃ n0, ∀ n ≥ n0, d.unwrap n = .ok w) ∧ w.map PyPair.key = d.dict ∧ Same (.dict (I ++ W)) (.dict w) := by
  have htw := ((Cont.good_iff _).1 ht).1
  have hdis : ∀ k, k ∈ c.dict → k ∈ t.dict → False := fun k h1 h2 => by
    obtain ⟨is, hm⟩ := Option.isSome_iff_exists.1 ((hcw.dictMem k).1 h1)
    have := (htw.dictMem k).1 h2
    rw [(h.line k is hm).2] at this
    cases this
  obtain ⟨l, ⟨n0, h1⟩, h2, h3⟩ := keys_unwrap (c := d) (fun k w => ∃ v, PyPair.mk k v ∈ I ++ W ∧ Same v w) d.dict fun k hk => by
    rcases (h.dict k).1 hk with h0 | h0
    · obtain ⟨⟨k', w⟩, hp, hpk⟩ := List.mem_map.1 ((hc k).2 h0)
      have : k' = k := hpk
      subst this
      obtain ⟨i, g1, w', ⟨m, g2⟩, g3⟩ := hl _ _ hp
      refine ⟨w', ⟨w, List.mem_append_left _ hp, g3⟩, m + 1, fun n hn => ?_⟩
      obtain ⟨n, rfl⟩ : ∃ m, n = m + 1 := ⟨n - 1, by omega⟩
      rw [unwrapKey, h.itemLine g1]
      exact g2 n (by omega)
    · obtain ⟨⟨k', w⟩, hp, hpk⟩ := List.mem_map.1 ((ht' k).2 h0)
      have : k' = k := hpk
      subst this
      obtain ⟨m, hm⟩ := hw _ _ hp
      refine ⟨w, ⟨w, List.mem_append_right _ hp, same_refl w⟩, m, fun n hn => ?_⟩
      have hnone : mapGet k' c.map = none := by
        rcases hm : mapGet k' c.map with _ | is
        · rfl
        · exact (hdis k' ((hcw.dictMem k').2 (by rw [hm]; rfl)) h0).elim
      rw [h.unwrapTable ht hnone]
      exact unwrapKey_more hm hn
  refine ⟨l, ⟨n0 + 1, fun n hn => ?_⟩, h2, same_dict ?_ ?_ ?_ h3⟩
  · obtain ⟨n, rfl⟩ : ∃ m, n = m + 1 := ⟨n - 1, by omega⟩
    rw [Cont.unwrap]
    exact h1 n (by omega)
  · rw [List.map_append]
    exact List.nodup_append.2 ⟨hI, hW, fun a ha b hb hab => hdis a ((hc a).1 ha) ((ht' a).1 (hab ▸ hb))⟩
  · rw [h2]; exact hdw.dictNodup
  · intro k
    rw [h2, h.dict, List.map_append, List.mem_append, hc, ht']

end Tomlkit
