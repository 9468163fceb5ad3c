import Verif.Spec.Convert
/-!
# Sorting of keys (C25)
-/
namespace Tomlkit
open Spec

theorem strLe_refl (a : Str) : strLe a a = true := by
  induction a with
  | nil => rfl
  | cons x r ih => unfold strLe; simp [ih]

theorem strLe_total (a b : Str) : strLe a b = true ∨ strLe b a = true := by
  induction a generalizing b with
  | nil => left; rfl
  | cons x r ih =>
    rcases b with _ | ⟨y, s⟩
    · right; rfl
    · unfold strLe
      rcases Nat.lt_trichotomy x y with h | h | h
      · left; simp [h]
      · subst h; simpa using ih s
      · right; simp [h]

theorem strLe_antisymm {a b : Str} (h1 : strLe a b = true) (h2 : strLe b a = true) : a = b := by
  induction a generalizing b with
  | nil => rcases b with _ | _ <;> first | rfl | (unfold strLe at h2; simp at h2)
  | cons x r ih =>
    rcases b with _ | ⟨y, s⟩
    · unfold strLe at h1; simp at h1
    · unfold strLe at h1 h2
      rcases Nat.lt_trichotomy x y with h | h | h
      · rw [if_neg (by omega), if_pos h] at h2; cases h2
      · subst h
        rw [if_neg (by omega), if_neg (by omega)] at h1 h2
        rw [ih h1 h2]
      · rw [if_neg (by omega), if_pos h] at h1; cases h1

theorem strLe_trans {a b c : Str} (h1 : strLe a b = true) (h2 : strLe b c = true) : strLe a c = true := by
  induction a generalizing b c with
  | nil => rfl
  | cons x r ih =>
    rcases b with _ | ⟨y, s⟩
    · unfold strLe at h1; simp at h1
    rcases c with _ | ⟨z, u⟩
    · unfold strLe at h2; simp at h2
    unfold strLe at h1 h2 ⊢
    rcases Nat.lt_trichotomy x y with h | h | h
    · rcases Nat.lt_trichotomy y z with g | g | g
      · rw [if_pos (by omega)]
      · rw [if_pos (by omega)]
      · rw [if_neg (by omega), if_pos g] at h2; cases h2
    · subst h
      rw [if_neg (by omega), if_neg (by omega)] at h1
      rcases Nat.lt_trichotomy x z with g | g | g
      · rw [if_pos g]
      · subst g
        rw [if_neg (by omega), if_neg (by omega)] at h2 ⊢
        exact ih h1 h2
      · rw [if_neg (by omega), if_pos g] at h2; cases h2
    · rw [if_neg (by omega), if_pos h] at h1; cases h1

theorem childLe_total (a b : Child) : childLe true a b = true ∨ childLe true b a = true := by
  unfold childLe
  by_cases h : a.isDict = b.isDict
  · rw [if_pos h, if_pos h.symm]; exact strLe_total _ _
  · rw [if_neg h, if_neg (Ne.symm h)]
    cases ha : a.isDict <;> cases hb : b.isDict <;> simp_all

theorem childLe_trans {a b c : Child} (h1 : childLe true a b = true) (h2 : childLe true b c = true) : childLe true a c = true := by
  unfold childLe at *
  cases ha : a.isDict <;> cases hb : b.isDict <;> cases hc : c.isDict <;> rw [ha, hb] at h1 <;> rw [hb, hc] at h2 <;>
    simp at h1 h2 ⊢ <;> exact strLe_trans h1 h2

theorem childLe_antisymm {a b : Child} (h1 : childLe true a b = true) (h2 : childLe true b a = true) : a.key = b.key := by
  unfold childLe at *
  cases ha : a.isDict <;> cases hb : b.isDict <;> rw [ha, hb] at h1 h2 <;> simp at h1 h2
  · exact strLe_antisymm h1 h2
  · exact strLe_antisymm h1 h2

theorem insertBy_perm {α : Type} (le : α → α → Bool) (x : α) (l : List α) : (insertBy le x l).Perm (x :: l) := by
  induction l with
  | nil => exact List.Perm.refl _
  | cons y r ih =>
    unfold insertBy
    split
    · exact List.Perm.refl _
    · exact (ih.cons y).trans (List.Perm.swap x y r)

theorem sortBy_perm {α : Type} (le : α → α → Bool) (l : List α) : (sortBy le l).Perm l := by
  induction l with
  | nil => exact List.Perm.refl _
  | cons y r ih => exact (insertBy_perm le y _).trans (ih.cons y)

theorem insertBy_sorted {α : Type} {le : α → α → Bool} (ht : ∀ a b, le a b = true ∨ le b a = true)
    (htr : ∀ a b c, le a b = true → le b c = true → le a c = true) (x : α) {l : List α}
    (h : l.Pairwise fun a b => le a b = true) : (insertBy le x l).Pairwise fun a b => le a b = true := by
  induction l with
  | nil => simp [insertBy]
  | cons y r ih =>
    rw [List.pairwise_cons] at h
    unfold insertBy
    split
    · rename_i hxy
      rw [List.pairwise_cons]
      refine ⟨?_, List.pairwise_cons.2 h⟩
      intro a ha
      rcases List.mem_cons.1 ha with rfl | ha
      · exact hxy
      · exact htr _ _ _ hxy (h.1 a ha)
    · rename_i hxy
      rw [List.pairwise_cons]
      refine ⟨?_, ih h.2⟩
      intro a ha
      rcases List.mem_cons.1 ((insertBy_perm le x r).mem_iff.1 ha) with rfl | ha
      · rcases ht a y with h' | h'
        · exact absurd h' hxy
        · exact h'
      · exact h.1 a ha

theorem sortBy_sorted {α : Type} {le : α → α → Bool} (ht : ∀ a b, le a b = true ∨ le b a = true)
    (htr : ∀ a b c, le a b = true → le b c = true → le a c = true) (l : List α) :
    (sortBy le l).Pairwise fun a b => le a b = true := by
  induction l with
  | nil => exact List.Pairwise.nil
  | cons y r ih => exact insertBy_sorted ht htr y ih

/-- two lists with the same elements and distinct keys sort to the same list -/
theorem sort_same {l l' : List Child} (hm : ∀ c, c ∈ l ↔ c ∈ l') (h : (l.map Child.key).Nodup) (h' : (l'.map Child.key).Nodup) :
    sortBy (childLe true) l = sortBy (childLe true) l' := by
  have hn : l.Nodup := List.Pairwise.of_map Child.key (fun a b hab e => hab (by rw [e])) h
  have hn' : l'.Nodup := List.Pairwise.of_map Child.key (fun a b hab e => hab (by rw [e])) h'
  have hp : l.Perm l' := (List.perm_ext_iff_of_nodup hn hn').2 hm
  have hinj : ∀ {l : List Child}, (l.map Child.key).Nodup → ∀ a ∈ l, ∀ b ∈ l, a.key = b.key → a = b := by
    intro l
    induction l with
    | nil => intro _ a ha; cases ha
    | cons x r ih =>
      intro hd a ha b hb hab
      rw [List.map_cons, List.nodup_cons] at hd
      rcases List.mem_cons.1 ha with h1 | ha <;> rcases List.mem_cons.1 hb with h2 | hb
      · rw [h1, h2]
      · exact absurd (by rw [← h1, hab]; exact List.mem_map_of_mem hb) hd.1
      · exact absurd (by rw [← h2, ← hab]; exact List.mem_map_of_mem ha) hd.1
      · exact ih hd.2 a ha b hb hab
  refine List.Perm.eq_of_pairwise ?_ (sortBy_sorted childLe_total (fun _ _ _ => childLe_trans) l)
    (sortBy_sorted childLe_total (fun _ _ _ => childLe_trans) l')
    (((sortBy_perm _ l).trans hp).trans (sortBy_perm _ l').symm)
  intro a b ha hb h1 h2
  exact hinj h a ((sortBy_perm _ l).mem_iff.1 ha) b (hp.mem_iff.2 ((sortBy_perm _ l').mem_iff.1 hb)) (childLe_antisymm h1 h2)

end Tomlkit

namespace Tomlkit
open Spec

theorem toChildren_spec {s : Bool} {p : Parent} : ∀ {l : List PyPair} {cs : List Child}, l.toChildren s p = .ok cs →
    cs.map Child.key = l.map PyPair.key ∧ (∀ c ∈ cs, ∃ q ∈ l, q.toChild s p = .ok c) ∧ (∀ q ∈ l, ∃ c ∈ cs, q.toChild s p = .ok c)
  | [], cs, h => by
    cases h
    exact ⟨rfl, (fun c hc => by cases hc), (fun c hc => by cases hc)⟩
  | q :: r, cs, h => by
    unfold List.toChildren at h
    rcases hq : q.toChild s p with e | c <;> rw [hq] at h <;> dsimp only at h
    · cases h
    rcases hr : r.toChildren s p with e | cr <;> rw [hr] at h
    · cases h
    cases h
    obtain ⟨h1, h2, h3⟩ := toChildren_spec hr
    refine ⟨?_, ?_, ?_⟩
    · rw [List.map_cons, List.map_cons, h1]
      congr 1
      rcases q with ⟨k, v⟩
      unfold PyPair.toChild at hq
      rcases hv : v.toItem s p with e | i <;> rw [hv] at hq <;> cases hq
      rfl
    · intro c' hc'
      rcases List.mem_cons.1 hc' with rfl | hc'
      · exact ⟨q, List.mem_cons_self .., hq⟩
      · obtain ⟨q', hq', h⟩ := h2 c' hc'
        exact ⟨q', List.mem_cons_of_mem _ hq', h⟩
    · intro q' hq'
      rcases List.mem_cons.1 hq' with rfl | hq'
      · exact ⟨c, List.mem_cons_self .., hq⟩
      · obtain ⟨c', hc', h⟩ := h3 q' hq'
        exact ⟨c', List.mem_cons_of_mem _ hc', h⟩

theorem toChildren_total {s : Bool} {p : Parent} : ∀ {l : List PyPair}, (∀ q ∈ l, ∃ c, q.toChild s p = .ok c) →
    ∃ cs, l.toChildren s p = .ok cs
  | [], _ => ⟨[], rfl⟩
  | q :: r, h => by
    obtain ⟨c, hc⟩ := h q (List.mem_cons_self ..)
    obtain ⟨cs, hcs⟩ := toChildren_total (l := r) fun q' hq' => h q' (List.mem_cons_of_mem _ hq')
    unfold List.toChildren
    rw [hc]
    dsimp only
    rw [hcs]
    exact ⟨_, rfl⟩

theorem sameIn_mem {l l' : List PyPair} (h : SameIn l l') {k : Str} {v : PyVal} (hq : .mk k v ∈ l) :
    ∃ w, .mk k w ∈ l' ∧ Same v w := by
  induction l with
  | nil => cases hq
  | cons p r ih =>
    unfold SameIn at h
    rcases List.mem_cons.1 hq with rfl | hq
    · exact h.1
    · exact ih h.2 hq

theorem throughoutIn_mem {P : PyVal → Prop} {l : List PyPair} (h : ThroughoutIn P l) {k : Str} {v : PyVal}
    (hq : .mk k v ∈ l) : Throughout P v := by
  induction l with
  | nil => cases hq
  | cons p r ih =>
    unfold ThroughoutIn at h
    rcases List.mem_cons.1 hq with rfl | hq
    · exact h.1
    · exact ih h.2 hq

theorem throughoutAll_mem {P : PyVal → Prop} {l : List PyVal} (h : ThroughoutAll P l) {v : PyVal}
    (hq : v ∈ l) : Throughout P v := by
  induction l with
  | nil => cases hq
  | cons p r ih =>
    unfold ThroughoutAll at h
    rcases List.mem_cons.1 hq with rfl | hq
    · exact h.1
    · exact ih h.2 hq

theorem throughout_here {P : PyVal → Prop} {v : PyVal} (h : Throughout P v) : P v := by
  cases v <;> unfold Throughout at h <;> first | exact h | exact h.1

theorem keysOnceIn_mem {l : List PyPair} (h : KeysOnceIn l) {k : Str} {v : PyVal} (hq : .mk k v ∈ l) : KeysOnce v := by
  induction l with
  | nil => cases hq
  | cons p r ih =>
    unfold KeysOnceIn at h
    rcases List.mem_cons.1 hq with rfl | hq
    · exact h.1
    · exact ih h.2 hq

theorem same_isDict {v w : PyVal} (h : Same v w) : w.isDict = v.isDict := by
  cases v <;> unfold Same at h <;> first | (subst h; rfl) | (obtain ⟨l', rfl, _⟩ := h; rfl)

theorem sameAll_isDict {l l' : List PyVal} (h : SameAll l l') : l'.all PyVal.isDict = l.all PyVal.isDict ∧
    l'.isEmpty = l.isEmpty := by
  induction l generalizing l' with
  | nil => unfold SameAll at h; subst h; exact ⟨rfl, rfl⟩
  | cons v r ih =>
    unfold SameAll at h
    obtain ⟨v', r', rfl, h1, h2⟩ := h
    rw [List.all_cons, List.all_cons, same_isDict h1, (ih h2).1]
    exact ⟨rfl, rfl⟩

mutual
/-- without dicts, `==` is identity -/
theorem same_eq : ∀ (v : PyVal) {w : PyVal}, NoDict v → Same v w → w = v
  | .bool _, _, _, h | .int _, _, _, h | .str _, _, _, h | .date _, _, _, h | .time _, _, _, h | .datetime _, _, _, h
  | .float _, _, _, h | .none, _, _, h => by unfold Same at h; exact h
  | .list l, w, hn, h => by
    unfold Same at h
    obtain ⟨l', rfl, h⟩ := h
    unfold NoDict Throughout at hn
    rw [sameAll_eq l hn.2 h]
  | .dict l, w, hn, h => by
    have := throughout_here hn
    simp [PyVal.isDict] at this
theorem sameAll_eq : ∀ (l : List PyVal) {l' : List PyVal}, ThroughoutAll (fun v => v.isDict = false) l → SameAll l l' → l' = l
  | [], l', _, h => by unfold SameAll at h; exact h
  | v :: r, l', hn, h => by
    unfold SameAll at h
    obtain ⟨v', r', rfl, h1, h2⟩ := h
    unfold ThroughoutAll at hn
    rw [same_eq v hn.1 h1, sameAll_eq r hn.2 h2]
end

/-- the children of equal dicts are the same up to order -/
theorem children_same {p : Parent} {l l' : List PyPair} (hlen : l.length = l'.length) (h : SameIn l l')
    (hd : (l.map PyPair.key).Nodup) (hd' : (l'.map PyPair.key).Nodup)
    (ih : ∀ k v w, .mk k v ∈ l → .mk k w ∈ l' → Same v w → ∀ i, v.toItem true p = .ok i → w.toItem true p = .ok i)
    {cs : List Child} (hc : l.toChildren true p = .ok cs) :
    ∃ cs', l'.toChildren true p = .ok cs' ∧ (∀ c, c ∈ cs ↔ c ∈ cs') ∧ (cs.map Child.key).Nodup ∧ (cs'.map Child.key).Nodup := by
  obtain ⟨h1, h2, h3⟩ := toChildren_spec hc
  -- the keys of the two dicts are the same
  have hkeys : ∀ k, k ∈ l.map PyPair.key ↔ k ∈ l'.map PyPair.key := by
    have hsub : ∀ k, k ∈ l.map PyPair.key → k ∈ l'.map PyPair.key := by
      intro k hk
      obtain ⟨⟨k', v⟩, hq, rfl⟩ := List.mem_map.1 hk
      obtain ⟨w, hw, _⟩ := sameIn_mem h hq
      exact List.mem_map.2 ⟨_, hw, rfl⟩
    intro k
    refine ⟨hsub k, fun hk => Classical.byContradiction fun hn => ?_⟩
    have hlt := List.Nodup.length_le_of_subset (l₁ := k :: l.map PyPair.key) (l₂ := l'.map PyPair.key)
      (List.nodup_cons.2 ⟨hn, hd⟩) (by
        intro x hx
        rcases List.mem_cons.1 hx with rfl | hx
        · exact hk
        · exact hsub x hx)
    rw [List.length_cons, List.length_map, List.length_map, hlen] at hlt
    omega
  have hval : ∀ {l : List PyPair}, (l.map PyPair.key).Nodup → ∀ {k v w}, PyPair.mk k v ∈ l → .mk k w ∈ l → v = w := by
    intro l
    induction l with
    | nil => intro _ k v w hv; cases hv
    | cons x r ih =>
      intro hd k v w hv hw
      rw [List.map_cons, List.nodup_cons] at hd
      rcases List.mem_cons.1 hv with hv' | hv' <;> rcases List.mem_cons.1 hw with hw' | hw'
      · rw [← hw'] at hv'; cases hv'; rfl
      · rw [← hv'] at hd; exact absurd (List.mem_map.2 ⟨PyPair.mk k w, hw', rfl⟩ : k ∈ r.map PyPair.key) hd.1
      · rw [← hw'] at hd; exact absurd (List.mem_map.2 ⟨PyPair.mk k v, hv', rfl⟩ : k ∈ r.map PyPair.key) hd.1
      · exact ih hd.2 hv' hw'
  -- equal pairs convert to equal children
  have hchild : ∀ k v w, PyPair.mk k v ∈ l → .mk k w ∈ l' → Same v w → ∀ c, (PyPair.mk k v).toChild true p = .ok c →
      (PyPair.mk k w).toChild true p = .ok c := by
    intro k v w hv hw hs c hcc
    unfold PyPair.toChild at hcc ⊢
    rcases hi : v.toItem true p with e | i <;> rw [hi] at hcc
    · cases hcc
    rw [ih k v w hv hw hs i hi, same_isDict hs]
    exact hcc
  have hback : ∀ k w, PyPair.mk k w ∈ l' → ∃ v, .mk k v ∈ l ∧ Same v w := by
    intro k w hw
    have : k ∈ l.map PyPair.key := (hkeys k).2 (List.mem_map.2 ⟨_, hw, rfl⟩)
    obtain ⟨⟨k', v⟩, hq, rfl⟩ := List.mem_map.1 this
    obtain ⟨w', hw', hs⟩ := sameIn_mem h hq
    rw [PyPair.key_mk] at hw
    rw [hval hd' hw hw']
    exact ⟨v, hq, hs⟩
  obtain ⟨cs', hcs'⟩ := toChildren_total (s := true) (p := p) (l := l') (by
    rintro ⟨k, w⟩ hw
    obtain ⟨v, hv, hs⟩ := hback k w hw
    obtain ⟨c, _, hc⟩ := h3 _ hv
    exact ⟨c, hchild k v w hv hw hs c hc⟩)
  obtain ⟨g1, g2, g3⟩ := toChildren_spec hcs'
  refine ⟨cs', hcs', ?_, by rw [h1]; exact hd, by rw [g1]; exact hd'⟩
  intro c
  constructor
  · intro hc'
    obtain ⟨⟨k, v⟩, hv, hcv⟩ := h2 c hc'
    obtain ⟨w, hw, hs⟩ := sameIn_mem h hv
    have := hchild k v w hv hw hs c hcv
    obtain ⟨c2, hc2, h4⟩ := g3 _ hw
    rw [this] at h4; cases h4; exact hc2
  · intro hc'
    obtain ⟨⟨k, w⟩, hw, hcw⟩ := g2 c hc'
    obtain ⟨v, hv, hs⟩ := hback k w hw
    obtain ⟨c2, hc2, h4⟩ := h3 _ hv
    have := hchild k v w hv hw hs c2 h4
    rw [hcw] at this; cases this; exact hc2

mutual
/-- sorted conversion does not see the order of the keys -/
theorem same_item : ∀ (v : PyVal) {w : PyVal}, Same v w → KeysOnce v → KeysOnce w → NoDictInListInList v → ∀ (p : Parent) (i : Item),
    v.toItem true p = .ok i → w.toItem true p = .ok i
  | .bool _, _, h, _, _, _, _, _, hi | .int _, _, h, _, _, _, _, _, hi | .str _, _, h, _, _, _, _, _, hi
  | .date _, _, h, _, _, _, _, _, hi | .time _, _, h, _, _, _, _, _, hi | .datetime _, _, h, _, _, _, _, _, hi
  | .float _, _, h, _, _, _, _, _, hi | .none, _, h, _, _, _, _, _, hi => by unfold Same at h; subst h; exact hi
  | .list l, w, h, hk, hk', hn, p, i, hi => by
    unfold Same at h
    obtain ⟨l', rfl, h⟩ := h
    unfold KeysOnce at hk hk'
    unfold NoDictInListInList at hn
    rw [Throughout.eq_def] at hn
    obtain ⟨hn1, hn2⟩ := hn
    unfold PyVal.toItem at hi ⊢
    rw [(sameAll_isDict h).1, (sameAll_isDict h).2]
    by_cases hcond : (!l.isEmpty && l.all PyVal.isDict && (decide (p = .none) || decide (p = .table))) = true
    · rw [if_pos hcond] at hi ⊢
      rcases ht : l.toTables true with e | ts <;> rw [ht] at hi
      · cases hi
      rw [same_tables l h hk hk' hn2 ts ht]
      exact hi
    · rw [if_neg hcond] at hi ⊢
      rcases ht : l.toElems true with e | ts <;> rw [ht] at hi
      · cases hi
      rw [same_elems l h hk hk' hn2 (fun m hm => hn1 l rfl m hm) ts ht]
      exact hi
  | .dict l, w, h, hk, hk', hn, p, i, hi => by
    unfold Same at h
    obtain ⟨l', rfl, hlen, h⟩ := h
    unfold KeysOnce at hk hk'
    unfold NoDictInListInList at hn
    rw [Throughout.eq_def] at hn
    obtain ⟨hn1, hn2⟩ := hn
    have hmain : ∀ q cs, l.toChildren true q = .ok cs → ∃ cs', l'.toChildren true q = .ok cs' ∧
        dictOrder true cs' = dictOrder true cs := by
      intro q cs hcs
      obtain ⟨cs', h1, h2, h3, h4⟩ := children_same hlen h hk.1 hk'.1 (same_pairs l hk.2 hn2 hk'.2 q) hcs
      refine ⟨cs', h1, ?_⟩
      unfold dictOrder
      rw [if_pos rfl, if_pos rfl, sort_same h2 h3 h4]
    rcases p with _ | _ | _ | _ <;> unfold PyVal.toItem at hi ⊢ <;> dsimp only at hi ⊢
    all_goals
      first
      | (rcases hc : l.toChildren true .table with e | cs <;> rw [hc] at hi <;> try (cases hi; done)
         obtain ⟨cs', h1, h2⟩ := hmain _ cs hc
         rw [h1]; dsimp only at hi ⊢; rw [h2]; exact hi)
      | (rcases hc : l.toChildren true .inline with e | cs <;> rw [hc] at hi <;> try (cases hi; done)
         obtain ⟨cs', h1, h2⟩ := hmain _ cs hc
         rw [h1]; dsimp only at hi ⊢; rw [h2]; exact hi)
termination_by v => sizeOf v
theorem same_pairs : ∀ (l : List PyPair) {l' : List PyPair}, KeysOnceIn l →
    ThroughoutIn (fun v => ∀ l, v = .list l → ∀ m, .list m ∈ l → NoDict (.list m)) l → KeysOnceIn l' → ∀ (p : Parent),
    ∀ k v w, .mk k v ∈ l → .mk k w ∈ l' → Same v w → ∀ i, v.toItem true p = .ok i → w.toItem true p = .ok i
  | [], _, _, _, _, _, _, _, _, hv, _, _, _, _ => by cases hv
  | .mk k1 v1 :: r, l', hk, hn, hk', p, k, v, w, hv, hw, hs, i, hi => by
    unfold KeysOnceIn at hk
    unfold ThroughoutIn at hn
    by_cases he : (PyPair.mk k v) = .mk k1 v1
    · have he2 : v = v1 := by cases he; rfl
      rw [he2] at hs hi
      exact same_item v1 hs hk.1 (keysOnceIn_mem hk' hw) hn.1 p i hi
    · have hv' : PyPair.mk k v ∈ r := by
        rcases List.mem_cons.1 hv with h | h
        · exact absurd h he
        · exact h
      exact same_pairs r hk.2 hn.2 hk' p k v w hv' hw hs i hi
termination_by l => sizeOf l
theorem same_tables : ∀ (l : List PyVal) {l' : List PyVal}, SameAll l l' → KeysOnceAll l → KeysOnceAll l' →
    ThroughoutAll (fun v => ∀ l, v = .list l → ∀ m, .list m ∈ l → NoDict (.list m)) l → ∀ ts, l.toTables true = .ok ts → l'.toTables true = .ok ts
  | [], l', h, _, _, _, ts, ht => by unfold SameAll at h; subst h; exact ht
  | v :: r, l', h, hk, hk', hn, ts, ht => by
    unfold SameAll at h
    obtain ⟨v', r', rfl, hs, hr⟩ := h
    unfold KeysOnceAll at hk hk'
    unfold ThroughoutAll at hn
    unfold List.toTables at ht ⊢
    rcases h1 : v.toTable true with e | t <;> rw [h1] at ht
    · cases ht
    rcases h2 : r.toTables true with e | tr <;> rw [h2] at ht
    · cases ht
    rw [same_table v hs hk.1 hk'.1 hn.1 t h1, same_tables r hr hk.2 hk'.2 hn.2 tr h2]
    exact ht
termination_by l => sizeOf l
theorem same_table : ∀ (v : PyVal) {w : PyVal}, Same v w → KeysOnce v → KeysOnce w → NoDictInListInList v → ∀ t,
    v.toTable true = .ok t → w.toTable true = .ok t
  | .bool _, _, h, _, _, _, _, hi | .int _, _, h, _, _, _, _, hi | .str _, _, h, _, _, _, _, hi
  | .date _, _, h, _, _, _, _, hi | .time _, _, h, _, _, _, _, hi | .datetime _, _, h, _, _, _, _, hi
  | .float _, _, h, _, _, _, _, hi | .none, _, h, _, _, _, _, hi => by unfold Same at h; subst h; exact hi
  | .list l, w, h, _, _, _, t, hi => by
    unfold Same at h
    obtain ⟨l', rfl, h⟩ := h
    exact hi
  | .dict l, w, h, hk, hk', hn, t, hi => by
    unfold Same at h
    obtain ⟨l', rfl, hlen, h⟩ := h
    unfold KeysOnce at hk hk'
    unfold NoDictInListInList at hn
    rw [Throughout.eq_def] at hn
    unfold PyVal.toTable at hi ⊢
    rcases hc : l.toChildren true .table with e | cs <;> rw [hc] at hi
    · cases hi
    obtain ⟨cs', h1, h2, h3, h4⟩ := children_same hlen h hk.1 hk'.1 (same_pairs l hk.2 hn.2 hk'.2 _) hc
    rw [h1]
    dsimp only at hi ⊢
    unfold elemOrder at hi ⊢
    rw [← sort_same h2 h3 h4]
    exact hi
termination_by v => sizeOf v
theorem same_elems : ∀ (l : List PyVal) {l' : List PyVal}, SameAll l l' → KeysOnceAll l → KeysOnceAll l' →
    ThroughoutAll (fun v => ∀ l, v = .list l → ∀ m, .list m ∈ l → NoDict (.list m)) l → (∀ m, .list m ∈ l → NoDict (.list m)) →
    ∀ ts, l.toElems true = .ok ts → l'.toElems true = .ok ts
  | [], l', h, _, _, _, _, ts, ht => by unfold SameAll at h; subst h; exact ht
  | v :: r, l', h, hk, hk', hn, hm, ts, ht => by
    unfold SameAll at h
    obtain ⟨v', r', rfl, hs, hr⟩ := h
    unfold KeysOnceAll at hk hk'
    unfold ThroughoutAll at hn
    unfold List.toElems at ht ⊢
    rcases h1 : v.toElem true with e | t <;> rw [h1] at ht
    · cases ht
    rcases h2 : r.toElems true with e | tr <;> rw [h2] at ht
    · cases ht
    rw [same_elem v hs hk.1 hk'.1 hn.1 (fun m h => by rw [← h]; exact hm m (by rw [← h]; exact List.mem_cons_self ..)) t h1, same_elems r hr hk.2 hk'.2 hn.2
      (fun m h => hm m (List.mem_cons_of_mem _ h)) tr h2]
    exact ht
termination_by l => sizeOf l
theorem same_elem : ∀ (v : PyVal) {w : PyVal}, Same v w → KeysOnce v → KeysOnce w → NoDictInListInList v →
    (∀ m, .list m = v → NoDict v) → ∀ i, v.toElem true = .ok i → w.toElem true = .ok i
  | .bool _, _, h, _, _, _, _, _, hi | .int _, _, h, _, _, _, _, _, hi | .str _, _, h, _, _, _, _, _, hi
  | .date _, _, h, _, _, _, _, _, hi | .time _, _, h, _, _, _, _, _, hi | .datetime _, _, h, _, _, _, _, _, hi
  | .float _, _, h, _, _, _, _, _, hi | .none, _, h, _, _, _, _, _, hi => by unfold Same at h; subst h; exact hi
  | .list l, w, h, _, _, _, hm, i, hi => by rw [same_eq (.list l) (hm l rfl) h]; exact hi
  | .dict l, w, h, hk, hk', hn, _, t, hi => by
    unfold Same at h
    obtain ⟨l', rfl, hlen, h⟩ := h
    unfold KeysOnce at hk hk'
    unfold NoDictInListInList at hn
    rw [Throughout.eq_def] at hn
    unfold PyVal.toElem at hi ⊢
    rcases hc : l.toChildren true .inline with e | cs <;> rw [hc] at hi
    · cases hi
    obtain ⟨cs', h1, h2, h3, h4⟩ := children_same hlen h hk.1 hk'.1 (same_pairs l hk.2 hn.2 hk'.2 _) hc
    rw [h1]
    dsimp only at hi ⊢
    unfold elemOrder at hi ⊢
    rw [← sort_same (l := cs.map Child.noTrail) (l' := cs'.map Child.noTrail) (fun c => by simp only [List.mem_map, h2])
      (by rw [List.map_map]; exact h3) (by rw [List.map_map]; exact h4)]
    exact hi
termination_by v => sizeOf v
end

end Tomlkit
