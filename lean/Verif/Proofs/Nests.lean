import Verif.Proofs.Dots
/-!
# Pairs with dotted keys and the dictionary they denote
-/
namespace Tomlkit
open _root_.Spec Tomlkit.Spec

theorem mem_beside {k : Str} {L : List (List Str × PyVal)} {q : List Str × PyVal} : q ∈ beside k L ↔ q ∈ L ∧ q.1.head? ≠ some k := by
  unfold beside; simp

theorem beside_same (k : Str) (p : List Str) (v : PyVal) (L : List (List Str × PyVal)) : beside k ((k :: p, v) :: L) = beside k L := by
  unfold beside; simp

theorem beside_other {k a : Str} (h : a ≠ k) (p : List Str) (v : PyVal) (L : List (List Str × PyVal)) :
    beside k ((a :: p, v) :: L) = (a :: p, v) :: beside k L := by
  unfold beside; simp [h]

theorem beside_all {k : Str} {L : List (List Str × PyVal)} (h : ∀ q ∈ L, q.1.head? ≠ some k) : beside k L = L := by
  unfold beside
  rw [List.filter_eq_self]
  intro q hq
  simpa using h q hq

theorem under_none {k : Str} {L : List (List Str × PyVal)} (h : ∀ q ∈ L, q.1.head? ≠ some k) : under k L = [] := by
  rw [List.eq_nil_iff_forall_not_mem]
  intro q hq
  exact h _ (mem_under.1 hq) rfl

theorem under_beside {k k' : Str} (h : k' ≠ k) (L : List (List Str × PyVal)) : under k' (beside k L) = under k' L := by
  induction L with
  | nil => rfl
  | cons q L ih =>
    obtain ⟨p, v⟩ := q
    cases p with
    | nil => unfold beside under at ih ⊢; simpa using ih
    | cons a p =>
      by_cases ha : a = k
      · subst ha; rw [beside_same, under_other (fun e => h e.symm), ih]
      · rw [beside_other ha]
        by_cases hk : a = k'
        · subst hk; rw [under_same, under_same, ih]
        · rw [under_other hk, under_other hk, ih]

theorem heads_differ {a b : List Str} (ha : a ≠ []) (hb : b ≠ []) (h : a.head? ≠ b.head?) : ¬ a <+: b ∧ ¬ b <+: a := by
  cases a with
  | nil => exact absurd rfl ha
  | cons x a =>
    cases b with
    | nil => exact absurd rfl hb
    | cons y b =>
      have hxy : x ≠ y := fun e => h (by simp [e])
      exact ⟨fun h => hxy (List.cons_prefix_cons.1 h).1, fun h => hxy (List.cons_prefix_cons.1 h).1.symm⟩

/-- the paths that start with a name and the other ones -/
theorem apart_split {k : Str} : ∀ {L : List (List Str × PyVal)}, (∀ q ∈ under k L, q.1 ≠ []) → Apart (beside k L) →
    ((under k L).Pairwise fun a b => ¬ a.1 <+: b.1 ∧ ¬ b.1 <+: a.1) → Apart L
  | [], _, _, _ => ⟨fun q hq => (by cases hq), .nil⟩
  | (p, v) :: L, h1, h2, h3 => by
    have hne : p ≠ [] := by
      intro hp; subst hp
      exact h2.1 ([], v) (mem_beside.2 ⟨List.mem_cons_self .., by simp⟩) rfl
    have cross : ∀ {x : List Str}, x ≠ [] → ∀ q ∈ L, q.1 ≠ [] → x.head? ≠ q.1.head? → ¬ x <+: q.1 ∧ ¬ q.1 <+: x :=
      fun hx q _ hq h => heads_differ hx hq h
    obtain ⟨a, p, rfl⟩ : ∃ a r, p = a :: r := by cases p with
      | nil => exact absurd rfl hne
      | cons a r => exact ⟨a, r, rfl⟩
    by_cases ha : a = k
    · subst ha
      rw [under_same] at h1 h3
      rw [beside_same] at h2
      have ih := apart_split (L := L) (fun q hq => h1 q (List.mem_cons_of_mem _ hq)) h2 (List.pairwise_cons.1 h3).2
      refine ⟨fun q hq => ?_, List.pairwise_cons.2 ⟨fun q hq => ?_, ih.2⟩⟩
      · rcases List.mem_cons.1 hq with rfl | hq
        · exact hne
        · exact ih.1 q hq
      · by_cases hh : q.1.head? = some a
        · obtain ⟨q1, q2⟩ := q
          cases q1 with
          | nil => cases hh
          | cons x q1 =>
            cases hh
            have := (List.pairwise_cons.1 h3).1 (q1, q2) (mem_under.2 hq)
            simpa using this
        · exact cross hne q hq (ih.1 q hq) (by simpa using fun h => hh h.symm)
    · rw [under_other ha] at h1 h3
      rw [beside_other ha] at h2
      have ih := apart_split (L := L) h1 ⟨fun q hq => h2.1 q (List.mem_cons_of_mem _ hq), (List.pairwise_cons.1 h2.2).2⟩ h3
      refine ⟨fun q hq => ?_, List.pairwise_cons.2 ⟨fun q hq => ?_, ih.2⟩⟩
      · rcases List.mem_cons.1 hq with rfl | hq
        · exact hne
        · exact ih.1 q hq
      · by_cases hh : q.1.head? = some k
        · exact cross hne q hq (ih.1 q hq) (by rw [hh]; simpa using ha)
        · exact (List.pairwise_cons.1 h2.2).1 q (mem_beside.2 ⟨hq, hh⟩)

theorem nest_apart {L : List (List Str × PyVal)} {l : List PyPair} (h : Nest L l) : Apart L := by
  induction h with
  | nil => exact ⟨fun q hq => (by cases hq), .nil⟩
  | value k v L l hk _ ih =>
    refine ⟨fun q hq => ?_, List.pairwise_cons.2 ⟨fun q hq => heads_differ (by simp) (ih.1 q hq) (by simpa using fun h => hk q hq h.symm), ih.2⟩⟩
    rcases List.mem_cons.1 hq with rfl | hq
    · simp
    · exact ih.1 q hq
  | table k p v L l1 l2 hp _ _ ih1 ih2 =>
    exact apart_split (k := k) (by rw [under_same]; exact ih1.1) (by rw [beside_same]; exact ih2) (by rw [under_same]; exact ih1.2)

theorem dictOfNames_cons (a : Str) : ∀ (xs : List (Option Str)) (d : List Str), dictOfNames xs (a :: d) = a :: dictOfNames (xs.filter (· ≠ some a)) d
  | [], _ => rfl
  | none :: r, d => by
    rw [dictOfNames_none, List.filter_cons_of_pos (by simp), dictOfNames_none]
    exact dictOfNames_cons a r d
  | some x :: r, d => by
    rw [dictOfNames_some]
    by_cases hx : x = a
    · subst hx
      rw [List.filter_cons_of_neg (by simp), ← dictOfNames_cons]
      unfold dictSet
      rw [if_pos (by simp)]
    · rw [List.filter_cons_of_pos (by simpa using hx), dictOfNames_some, ← dictOfNames_cons]
      congr 1
      unfold dictSet
      by_cases hd : x ∈ d
      · rw [if_pos (by simp [hd]), if_pos (by simpa using hd)]
      · rw [if_neg (by simp [hx, hd]), if_neg (by simpa using hd)]
        rfl

theorem heads_beside (k : Str) (L : List (List Str × PyVal)) : (beside k L).map (fun q => q.1.head?) = (L.map fun q => q.1.head?).filter (· ≠ some k) := by
  unfold beside
  rw [List.filter_map]
  rfl

/-- the names come where they are written first -/
theorem nest_keys {L : List (List Str × PyVal)} {l : List PyPair} (h : Nest L l) : l.map PyPair.key = dictOfNames (L.map fun q => q.1.head?) [] := by
  induction h with
  | nil => rfl
  | value k v L l hk _ ih =>
    rw [List.map_cons, List.map_cons, PyPair.key_mk, ih]
    show _ = dictOfNames (some k :: _) []
    rw [dictOfNames_some]
    show _ = dictOfNames _ [k]
    rw [dictOfNames_cons, ← heads_beside, beside_all hk]
  | table k p v L l1 l2 hp _ _ _ ih2 =>
    rw [List.map_cons, List.map_cons, PyPair.key_mk, ih2]
    show _ = dictOfNames (some k :: _) []
    rw [dictOfNames_some]
    show _ = dictOfNames _ [k]
    rw [dictOfNames_cons, ← heads_beside]

theorem DotEnts.names {M : PyVal → Item → Prop} {L : List (List Str × PyVal)} {b : List Entry} (h : DotEnts M L b) (d : List Str) :
    dictOfNames (b.map Entry.name) d = dictOfNames (L.map fun q => q.1.head?) d := by
  induction h generalizing d with
  | nil => rfl
  | skip hi _ ih => exact ih d
  | @cons p v e L b he _ ih =>
    obtain ⟨k, h1, h2⟩ := he.name
    rw [List.map_cons, List.map_cons]
    have hn : e.name = some k.key := by unfold Entry.name; rw [h1]; rfl
    rw [hn]
    simp only [h2]
    rw [dictOfNames_some, dictOfNames_some]
    exact ih _

theorem nest_head {L : List (List Str × PyVal)} {l : List PyPair} (h : Nest L l) {k : Str} (hk : k ∈ l.map PyPair.key) : under k L ≠ [] := by
  induction h with
  | nil => cases hk
  | value k' v L l hk' _ ih =>
    rw [List.map_cons, PyPair.key_mk] at hk
    by_cases he : k' = k
    · subst he; rw [under_same]; simp
    · rw [under_other he]
      exact ih ((List.mem_cons.1 hk).resolve_left fun h => he h.symm)
  | table k' p v L l1 l2 hp _ _ _ ih2 =>
    rw [List.map_cons, PyPair.key_mk] at hk
    by_cases he : k' = k
    · subst he; rw [under_same]; simp
    · rw [under_other he]
      have := ih2 ((List.mem_cons.1 hk).resolve_left fun h => he h.symm)
      rwa [under_beside (fun e => he e.symm)] at this

/-- what a key of the dictionary leads to -/
theorem nest_mem {L : List (List Str × PyVal)} {l : List PyPair} (h : Nest L l) {k : Str} {w : PyVal} (hm : .mk k w ∈ l) :
    under k L = [([], w)] ∨ ∃ l1, w = .dict l1 ∧ Nest (under k L) l1 ∧ under k L ≠ [] := by
  induction h with
  | nil => cases hm
  | value k' v L l hk _ ih =>
    rcases List.mem_cons.1 hm with h0 | h0
    · cases h0
      left
      rw [under_same, under_none hk]
    · by_cases he : k' = k
      · subst he
        exfalso
        have := ih h0
        rw [under_none hk] at this
        rcases this with h1 | ⟨l1, _, h1, h2⟩
        · cases h1
        · exact h2 rfl
      · rw [under_other he]; exact ih h0
  | table k' p v L l1 l2 hp h1 h2 _ ih2 =>
    rcases List.mem_cons.1 hm with h0 | h0
    · cases h0
      right
      rw [under_same]
      exact ⟨l1, rfl, h1, by simp⟩
    · by_cases he : k' = k
      · subst he
        exfalso
        refine nest_head h2 (k := k') (List.mem_map_of_mem (f := PyPair.key) h0) ?_
        refine under_none fun q hq => (mem_beside.1 hq).2
      · rw [under_other he]
        have := ih2 h0
        rwa [under_beside (fun e => he e.symm)] at this

/-! ## Looking up a key -/

variable {M : PyVal → Item → Prop}

theorem DotIdx.keys {c : Cont} {L : List (List Str × PyVal)} {l : List PyPair} (h : DotIdx M c L) (hn : Nest L l) : c.dict = l.map PyPair.key := by
  rw [h.dict, nest_keys hn, dictOfBody_names, h.ents.names]

/-- what reading a key finds: the value, the one table, or the parts of a table -/
inductive DotKey (M : PyVal → Item → Prop) (c : Cont) (k : Str) (w : PyVal) (U : List (List Str × PyVal)) : Prop
  | value (i : Item) (hi : c.item k = .ok (.inl i)) (h : M w i)
  | table (tb : Tbl) (l : List PyPair) (p : List Str) (v : PyVal) (hi : c.item k = .ok (.inl (.table tb))) (hw : w = .dict l) (hU : U = [(p, v)])
      (h : DotIdx M tb.cont [(p, v)]) (hn : Nest [(p, v)] l)
  | parts (is : List Nat) (l : List PyPair) (hi : c.item k = .ok (.inr is)) (hw : w = .dict l)
      (h : DotEnts M U ((tablesAt c.body is).flatMap fun t => t.cont.body)) (hn : Nest U l)

theorem DotEnt.idx {tb : Tbl} {a : SKey} {i : Item} {p : List Str} {v : PyVal} (hb : tb.cont.body = [.mk (some a) i]) (hm : tb.cont.map = [(a.key, [0])])
    (hd : tb.cont.dict = [a.key]) (h : DotEnt M p v (.mk (some a) i)) : DotIdx M tb.cont [(p, v)] := by
  refine ⟨fun k => ?_, ?_, ?_⟩
  · rw [hb, hm]
    simp only [spots, Entry.name_mk, Option.map, Option.some.injEq]
    by_cases hk : a.key = k
    · subst hk
      rw [if_pos rfl]
      simp [mapGet]
    · rw [if_neg hk]
      simp [mapGet, hk]
  · rw [hb, hd]; rfl
  · rw [hb]; exact .cons h .nil

theorem dot_key {c : Cont} {L : List (List Str × PyVal)} {l : List PyPair} (h : DotIdx M c L) (hn : Nest L l) {k : Str} {w : PyVal} (hm : .mk k w ∈ l) :
    DotKey M c k w (under k L) := by
  have hs := h.ents.spots (k := k)
  have hi := h.index k
  have one : ∀ j, spots k 0 c.body = [j] → ∀ p v, under k L = [(p, v)] → ∃ e, c.item k = .ok (.inl e.v) ∧ DotEnt M (k :: p) v e := by
    intro j hj p v hu
    rw [hj] at hi
    obtain ⟨p', v', e, h1, h2, h3⟩ := h.mem_spots (k := k) (j := j) (by rw [hj]; simp)
    have := mem_under (q := (p', v')).2 h2
    rw [hu, List.mem_singleton] at this
    cases this
    exact ⟨e, item_single.2 ⟨j, e, hi, h1, rfl⟩, h3⟩
  rcases nest_mem hn hm with hu | ⟨l1, rfl, hn1, hne⟩
  · rw [hu] at hs
    obtain ⟨j, hj⟩ := List.length_eq_one_iff.1 hs
    obtain ⟨e, h1, h2⟩ := one j hj _ _ hu
    rcases h2.inv with ⟨kk, i1, h0, rfl, h3, _⟩ | ⟨kk, a, i1, tb, r1, h0, rfl, h3, _⟩
    · exact .value i1 h1 h3
    · exact absurd (List.cons.inj h0).2.symm h3
  · rcases hu : under k L with _ | ⟨⟨p, v⟩, _ | ⟨q2, r⟩⟩
    · exact absurd hu hne
    · rw [hu] at hs
      obtain ⟨j, hj⟩ := List.length_eq_one_iff.1 hs
      obtain ⟨e, h1, h2⟩ := one j hj _ _ hu
      rcases h2.inv with ⟨kk, i1, h0, rfl, h3, _⟩ | ⟨kk, a, i1, tb, r1, h0, rfl, h3, g1, g2, g3, g4, g5, g6, g7, g8⟩
      · rw [hu] at hn1
        exact absurd (List.cons.inj h0).2 ((nest_apart hn1).1 (p, v) (List.mem_singleton.2 rfl))
      · obtain ⟨_, rfl⟩ := List.cons.inj h0
        rw [hu] at hn1
        exact .table tb l1 p v h1 rfl rfl (DotEnt.idx g5 g6 g7 g8) hn1
    · rw [← hu]
      rcases hsp : spots k 0 c.body with _ | ⟨j, _ | ⟨j2, r2⟩⟩
      · rw [hsp, hu] at hs; cases hs
      · rw [hsp, hu] at hs; simp at hs
      · rw [hsp] at hi
        have ht := tablesAt_spots k c.body []
        simp only [List.nil_append, List.length_nil] at ht
        rw [hsp] at ht
        refine .parts (j :: j2 :: r2) l1 ?_ rfl ?_ hn1
        · unfold Cont.item; rw [hi]
        · rw [ht]; exact h.ents.parts (nest_apart hn1).1

/-! ## Reading all of it -/

theorem unwrapKeys_of {c : Cont} : ∀ {l : List PyPair}, (∀ k w, .mk k w ∈ l → ∃ n0, ∀ n ≥ n0, unwrapKey n c k = .ok w) →
    ∃ n0, ∀ n ≥ n0, unwrapKeys n c (l.map PyPair.key) = .ok l
  | [], _ => by
    refine ⟨1, fun n hn => ?_⟩
    obtain ⟨m, rfl⟩ : ∃ m, n = m + 1 := ⟨n - 1, by omega⟩
    rw [List.map_nil, unwrapKeys]
  | .mk k v :: r, h => by
    obtain ⟨n1, hn1⟩ := h k v (List.mem_cons_self ..)
    obtain ⟨n2, hn2⟩ := unwrapKeys_of (l := r) fun k' w hw => h k' w (List.mem_cons_of_mem _ hw)
    refine ⟨n1 + n2 + 1, fun n hn => ?_⟩
    obtain ⟨m, rfl⟩ : ∃ m, n = m + 1 := ⟨n - 1, by omega⟩
    rw [List.map_cons, unwrapKeys, PyPair.key_mk, hn1 m (by omega)]
    dsimp only
    rw [hn2 m (by omega)]; rfl

theorem Cont.unwrap_of {c : Cont} {l : List PyPair} (hd : c.dict = l.map PyPair.key)
    (h : ∀ k w, .mk k w ∈ l → ∃ n0, ∀ n ≥ n0, unwrapKey n c k = .ok w) : ∃ n0, ∀ n ≥ n0, Cont.unwrap n c = .ok l := by
  obtain ⟨n0, h0⟩ := unwrapKeys_of h
  refine ⟨n0 + 1, fun n hn => ?_⟩
  obtain ⟨m, rfl⟩ : ∃ m, n = m + 1 := ⟨n - 1, by omega⟩
  rw [Cont.unwrap, hd, h0 m (by omega)]

theorem unwrapKey_item {c : Cont} {k : Str} {i : Item} {w : PyVal} (hi : c.item k = .ok (.inl i)) (h : ∃ n0, ∀ n ≥ n0, i.unwrap n = .ok w) :
    ∃ n0, ∀ n ≥ n0, unwrapKey n c k = .ok w := by
  obtain ⟨n0, h0⟩ := h
  refine ⟨n0 + 1, fun n hn => ?_⟩
  obtain ⟨m, rfl⟩ : ∃ m, n = m + 1 := ⟨n - 1, by omega⟩
  rw [unwrapKey, hi]
  exact h0 m (by omega)

theorem unwrap_tbl {tb : Tbl} {l : List PyPair} (h : ∃ n0, ∀ n ≥ n0, Cont.unwrap n tb.cont = .ok l) :
    ∃ n0, ∀ n ≥ n0, (Item.table tb).unwrap n = .ok (.dict l) := by
  obtain ⟨n0, h0⟩ := h
  refine ⟨n0 + 1, fun n hn => ?_⟩
  obtain ⟨m, rfl⟩ : ∃ m, n = m + 1 := ⟨n - 1, by omega⟩
  unfold Item.unwrap
  try dsimp only
  rw [h0 m (by omega)]; rfl

theorem mem_tablesAt {b : List Entry} {is : List Nat} {t : Tbl} (h : t ∈ tablesAt b is) : ∃ e ∈ b, e.v = .table t := by
  unfold tablesAt at h
  rw [List.mem_filterMap] at h
  obtain ⟨i, _, h⟩ := h
  rcases hb : b[i]? with _ | e
  · rw [hb] at h; cases h
  · rw [hb] at h
    simp only at h
    refine ⟨e, List.mem_of_getElem? hb, ?_⟩
    rcases e with ⟨_, v⟩
    cases v <;> simp_all [Entry.v]

theorem size_mem : ∀ {b : List Entry} {e : Entry}, e ∈ b → e.size ≤ b.entriesSize
  | [], _, h => by cases h
  | x :: r, e, h => by
    rw [List.entriesSize]
    rcases List.mem_cons.1 h with rfl | h
    · omega
    · have := size_mem h; omega

/-- the paths in the parts of a table are not longer than the container -/
theorem parts_depth {c : Cont} {is : List Nat} {U : List (List Str × PyVal)} (h : DotEnts M U ((tablesAt c.body is).flatMap fun t => t.cont.body)) :
    ∀ q ∈ U, q.1.length ≤ c.size := by
  intro q hq
  obtain ⟨e, he, h1⟩ := h.depth q hq
  obtain ⟨t, ht, he⟩ := List.mem_flatMap.1 he
  obtain ⟨e', he', hv⟩ := mem_tablesAt ht
  have h2 := size_mem he
  have h3 := size_mem he'
  rcases e' with ⟨k, v⟩
  simp only [Entry.v] at hv
  subst hv
  rcases c with ⟨b, m, d, p, tk⟩
  rcases t with ⟨⟨tb, tm, td, tp, ttk⟩, tt, ta, ts, tn, tdn⟩
  simp only [Tbl.cont, Cont.body] at h2 h3
  simp only [Entry.size, Item.size, Tbl.size, Cont.size] at h3 ⊢
  omega

theorem unwrapKey_parts {c : Cont} {k : Str} {is : List Nat} {l : List PyPair} {U : List (List Str × PyVal)} (hi : c.item k = .ok (.inr is))
    (h : DotEnts M U ((tablesAt c.body is).flatMap fun t => t.cont.body)) (hn : Nest U l)
    (hu : ∀ pc, DotIdx M pc U → ∃ n0, ∀ n ≥ n0, Cont.unwrap n pc = .ok l) : ∃ n0, ∀ n ≥ n0, unwrapKey n c k = .ok (.dict l) := by
  obtain ⟨pc, h1, h2, _⟩ := dot_proxy (dot_has c.size) (n := fuelFor c (.null {})) (by unfold fuelFor; omega) h (nest_apart hn) (parts_depth h)
  obtain ⟨n0, h0⟩ := hu pc h2.toDotIdx
  refine ⟨n0 + 1, fun n hn => ?_⟩
  obtain ⟨m, rfl⟩ : ∃ m, n = m + 1 := ⟨n - 1, by omega⟩
  rw [unwrapKey, hi]
  dsimp only
  rw [h1]
  dsimp only
  rw [h0 m (by omega)]; rfl

/-- a container with the entries of the paths is read as the dictionary that they denote -/
theorem dot_unwrap (hM : ∀ v i, M v i → ∃ n0, ∀ n ≥ n0, i.unwrap n = .ok v) : ∀ (d : Nat) {c : Cont} {L : List (List Str × PyVal)} {l : List PyPair},
    DotIdx M c L → Nest L l → (∀ q ∈ L, q.1.length ≤ d) → ∃ n0, ∀ n ≥ n0, Cont.unwrap n c = .ok l := by
  intro d
  induction d with
  | zero =>
    intro c L l h hn hd
    have : L = [] := by
      cases L with
      | nil => rfl
      | cons q L =>
        have h1 := hd q (List.mem_cons_self ..)
        exact absurd (List.length_eq_zero_iff.1 (Nat.le_zero.1 h1)) ((nest_apart hn).1 q (List.mem_cons_self ..))
    subst this
    cases hn
    exact Cont.unwrap_of (h.keys .nil) fun k w hw => by cases hw
  | succ d ih =>
    intro c L l h hn hd
    have hU : ∀ k, ∀ q ∈ under k L, q.1.length ≤ d := fun k q hq => by
      have := hd _ (mem_under.1 hq); simp at this; omega
    refine Cont.unwrap_of (h.keys hn) fun k w hw => ?_
    cases dot_key h hn hw with
    | value i hi h1 => exact unwrapKey_item hi (hM w i h1)
    | table tb l1 p v hi hw hu h1 hn1 =>
      subst hw
      exact unwrapKey_item hi (unwrap_tbl (ih h1 hn1 (by rw [← hu]; exact hU k)))
    | parts is l1 hi hw h1 hn1 =>
      subst hw
      exact unwrapKey_parts hi h1 hn1 fun pc hpc => ih hpc hn1 (hU k)

/-- pairs with names instead of paths -/
def flatPairs (l : List PyPair) : List (List Str × PyVal) := l.map fun p => ([p.key], p.val)

/-- names that are different denote the pairs themselves -/
theorem nest_flat : ∀ {l : List PyPair}, (l.map PyPair.key).Nodup → Nest (flatPairs l) l
  | [], _ => .nil
  | .mk k v :: l, h => by
    rw [List.map_cons, List.nodup_cons] at h
    refine .value k v _ l (fun q hq => ?_) (nest_flat h.2)
    obtain ⟨p, hp, rfl⟩ := List.mem_map.1 hq
    intro e
    simp only [List.head?_cons, Option.some.injEq] at e
    exact h.1 (List.mem_map.2 ⟨p, hp, e⟩)

end Tomlkit
