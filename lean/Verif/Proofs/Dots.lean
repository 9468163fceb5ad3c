import Verif.Spec.Nest
import Verif.Proofs.Wrap
import Verif.Proofs.AppendErr
/-!
# Tables that dotted keys make

`a.b = 1`, `a.c = 2` are two entries of the container, both with the name `a`. Reading `a` puts the parts together in a scratch
container. Here: this always succeeds when the paths fit together, and the scratch container has the expected entries.
-/
namespace Tomlkit
open _root_.Spec Tomlkit.Spec

/-! ## Paths -/

/-- neither path leads through the end of the other, and there are no empty ones -/
def Apart (L : List (List Str × PyVal)) : Prop :=
  (∀ q ∈ L, q.1 ≠ []) ∧ L.Pairwise fun a b => ¬ a.1 <+: b.1 ∧ ¬ b.1 <+: a.1

theorem Apart.left {L M : List (List Str × PyVal)} (h : Apart (L ++ M)) : Apart L :=
  ⟨fun q hq => h.1 q (List.mem_append_left _ hq), (List.pairwise_append.1 h.2).1⟩

theorem under_append (k : Str) (L M : List (List Str × PyVal)) : under k (L ++ M) = under k L ++ under k M := by
  unfold under; rw [List.filterMap_append]

theorem under_same (k : Str) (p : List Str) (v : PyVal) (L : List (List Str × PyVal)) : under k ((k :: p, v) :: L) = (p, v) :: under k L := by
  unfold under; simp

theorem under_other {k a : Str} (h : a ≠ k) (p : List Str) (v : PyVal) (L : List (List Str × PyVal)) : under k ((a :: p, v) :: L) = under k L := by
  unfold under; simp [h]

theorem mem_under {k : Str} {L : List (List Str × PyVal)} {q : List Str × PyVal} : q ∈ under k L ↔ (k :: q.1, q.2) ∈ L := by
  unfold under
  rw [List.mem_filterMap]
  constructor
  · rintro ⟨⟨x, v⟩, hx, h⟩
    cases x with
    | nil => cases h
    | cons a p =>
      simp only at h
      split at h
      · rename_i hak; cases h; subst hak; exact hx
      · cases h
  · intro h
    exact ⟨_, h, by simp⟩

theorem under_pairwise {k : Str} {L : List (List Str × PyVal)} (h : L.Pairwise fun a b => ¬ a.1 <+: b.1 ∧ ¬ b.1 <+: a.1) :
    (under k L).Pairwise fun a b => ¬ a.1 <+: b.1 ∧ ¬ b.1 <+: a.1 := by
  unfold under
  rw [List.pairwise_filterMap]
  refine h.imp ?_
  rintro ⟨a, va⟩ ⟨b, vb⟩ hab x hx y hy
  cases a with
  | nil => cases hx
  | cons a p =>
    cases b with
    | nil => cases hy
    | cons b r =>
      simp only at hx hy
      split at hx
      · split at hy
        · rename_i h1 h2
          cases hx; cases hy; subst h1; subst h2
          simpa using hab
        · cases hy
      · cases hx

/-- with two paths below it, a name is no end -/
theorem Apart.under {L : List (List Str × PyVal)} (h : Apart L) {k : Str} (h2 : 2 ≤ (under k L).length) : Apart (under k L) := by
  refine ⟨fun q hq hq0 => ?_, under_pairwise h.2⟩
  have hp := under_pairwise (k := k) h.2
  obtain ⟨q1, q2⟩ := q
  simp only at hq0
  subst hq0
  obtain ⟨i, hi, he⟩ := List.mem_iff_getElem.1 hq
  rw [List.pairwise_iff_getElem] at hp
  rcases Nat.lt_or_ge i 1 with h0 | h0
  · have := hp i 1 hi (by omega) (by omega)
    rw [he] at this
    exact this.1 (List.nil_prefix)
  · have := hp 0 i (by omega) hi (by omega)
    rw [he] at this
    exact this.2 (List.nil_prefix)

/-! ## Entries -/

section
variable (M : PyVal → Item → Prop)

/-- the entry that a pair with a dotted key makes -/
inductive DotEnt : List Str → PyVal → Entry → Prop
  | leaf {k : SKey} {i : Item} {v : PyVal} (h : M v i) (hi : i.isTableLike = false) : DotEnt [k.key] v (.mk (some k) i)
  | deeper {k a : SKey} {i : Item} {tb : Tbl} {p : List Str} {v : PyVal} (hd : k.dotted = true) (hs : tb.superFlag = some true) (ha : tb.isAot = false)
      (hn : tb.name.isSome = true) (hb : tb.cont.body = [.mk (some a) i]) (hm : tb.cont.map = [(a.key, [0])]) (hdict : tb.cont.dict = [a.key])
      (h : DotEnt p v (.mk (some a) i)) : DotEnt (k.key :: p) v (.mk (some k) (.table tb))

/-- the entries of lines: for every path one entry, and others without key between them -/
inductive DotEnts : List (List Str × PyVal) → List Entry → Prop
  | nil : DotEnts [] []
  | skip {i : Item} {L : List (List Str × PyVal)} {b : List Entry} (hi : i.isTableLike = false) (h : DotEnts L b) : DotEnts L (.mk none i :: b)
  | cons {p : List Str} {v : PyVal} {e : Entry} {L : List (List Str × PyVal)} {b : List Entry} (he : DotEnt M p v e) (h : DotEnts L b) :
      DotEnts ((p, v) :: L) (e :: b)
end

variable {M : PyVal → Item → Prop}

theorem DotEnts.append {L K : List (List Str × PyVal)} {a b : List Entry} (h : DotEnts M L a) (h' : DotEnts M K b) : DotEnts M (L ++ K) (a ++ b) := by
  induction h with
  | nil => exact h'
  | skip hi _ ih => exact .skip hi ih
  | cons he _ ih => exact .cons he ih

theorem DotEnt.ne {p : List Str} {v : PyVal} {e : Entry} (h : DotEnt M p v e) : p ≠ [] := by cases h <;> simp

theorem DotEnt.inv {p : List Str} {v : PyVal} {e : Entry} (h : DotEnt M p v e) :
    (∃ k i, p = [k.key] ∧ e = .mk (some k) i ∧ M v i ∧ i.isTableLike = false) ∨
    ∃ (k a : SKey) (i : Item) (tb : Tbl) (r : List Str), p = k.key :: r ∧ e = .mk (some k) (.table tb) ∧ r ≠ [] ∧ k.dotted = true ∧ tb.superFlag = some true ∧
      tb.isAot = false ∧ tb.name.isSome = true ∧ tb.cont.body = [.mk (some a) i] ∧ tb.cont.map = [(a.key, [0])] ∧ tb.cont.dict = [a.key] ∧
      DotEnt M r v (.mk (some a) i) := by
  cases h with
  | @leaf k i v h hi => exact .inl ⟨k, i, rfl, rfl, h, hi⟩
  | @deeper k a i tb r v h1 h2 h3 h4 h5 h6 h7 h8 => exact .inr ⟨k, a, i, tb, r, rfl, rfl, h8.ne, h1, h2, h3, h4, h5, h6, h7, h8⟩

theorem DotEnt.name {p : List Str} {v : PyVal} {e : Entry} (h : DotEnt M p v e) : ∃ k, e.key = some k ∧ p.head? = some k.key := by
  cases h <;> exact ⟨_, rfl, rfl⟩

theorem DotEnt.depth {p : List Str} {v : PyVal} {e : Entry} (h : DotEnt M p v e) : p.length ≤ e.size := by
  induction h with
  | leaf => unfold Entry.size; simp
  | @deeper k a i tb p v hd hs ha hn hb hm hdict h ih =>
    rcases tb with ⟨⟨b, m, d, ps, tk⟩, t, ia, sf, nm, dn⟩
    simp only [Tbl.cont, Cont.body] at hb
    subst hb
    simp only [List.length_cons, Entry.size, Item.size, Tbl.size, Cont.size, List.entriesSize] at ih ⊢
    omega

theorem DotEnts.depth {L : List (List Str × PyVal)} {b : List Entry} (h : DotEnts M L b) : ∀ q ∈ L, ∃ e ∈ b, q.1.length ≤ e.size := by
  induction h with
  | nil => intro q hq; cases hq
  | skip hi _ ih => intro q hq; obtain ⟨e, h1, h2⟩ := ih q hq; exact ⟨e, List.mem_cons_of_mem _ h1, h2⟩
  | cons he _ ih =>
    intro q hq
    rcases List.mem_cons.1 hq with rfl | hq
    · exact ⟨_, List.mem_cons_self .., he.depth⟩
    · obtain ⟨e, h1, h2⟩ := ih q hq; exact ⟨e, List.mem_cons_of_mem _ h1, h2⟩

/-- where a key is -/
def spots (k : Str) : Nat → List Entry → List Nat
  | _, [] => []
  | i, e :: r => if e.name = some k then i :: spots k (i + 1) r else spots k (i + 1) r

theorem spots_append (k : Str) : ∀ (a b : List Entry) (i : Nat), spots k i (a ++ b) = spots k i a ++ spots k (i + a.length) b
  | [], _, _ => rfl
  | e :: r, b, i => by
    simp only [List.cons_append, spots, List.length_cons]
    rw [spots_append k r b (i + 1), Nat.add_right_comm, Nat.add_assoc]
    split <;> rfl

theorem mem_spots {k : Str} : ∀ {b : List Entry} {i j : Nat}, j ∈ spots k i b → ∃ e, b[j - i]? = some e ∧ e.name = some k ∧ i ≤ j
  | [], _, _, h => by cases h
  | e :: r, i, j, h => by
    unfold spots at h
    have back : j ∈ spots k (i + 1) r → ∃ e', (e :: r)[j - i]? = some e' ∧ e'.name = some k ∧ i ≤ j := fun h => by
      obtain ⟨e', h1, h2, h3⟩ := mem_spots h
      refine ⟨e', ?_, h2, by omega⟩
      rw [show j - i = (j - (i + 1)) + 1 by omega]
      exact h1
    split at h
    · rename_i hn
      rcases List.mem_cons.1 h with rfl | h
      · exact ⟨e, by simp, hn, Nat.le_refl _⟩
      · exact back h
    · exact back h

/-- the parts of a table -/
def partsOf (k : Str) (b : List Entry) : List Tbl :=
  b.filterMap fun e => if e.name = some k then (match e.v with | .table tb => some tb | _ => none) else none

theorem tablesAt_spots (k : Str) : ∀ (b pre : List Entry), tablesAt (pre ++ b) (spots k pre.length b) = partsOf k b
  | [], _ => rfl
  | e :: r, pre => by
    have ih := tablesAt_spots k r (pre ++ [e])
    rw [List.append_assoc, List.length_append] at ih
    simp only [List.cons_append, List.nil_append, List.length_singleton] at ih
    unfold spots partsOf
    rw [List.filterMap_cons]
    by_cases hn : e.name = some k
    · rw [if_pos hn, if_pos hn]
      unfold tablesAt at ih ⊢
      rw [List.filterMap_cons, ih]
      simp only [List.getElem?_append_right (Nat.le_refl _), Nat.sub_self, List.getElem?_cons_zero]
      cases e.v <;> rfl
    · rw [if_neg hn, if_neg hn]
      exact ih

theorem spots_length (k : Str) : ∀ (b : List Entry) (i j : Nat), (spots k i b).length = (spots k j b).length
  | [], _, _ => rfl
  | e :: r, i, j => by unfold spots; split <;> simp [spots_length k r (i + 1) (j + 1)]

theorem DotEnts.spots {k : Str} {L : List (List Str × PyVal)} {b : List Entry} (h : DotEnts M L b) : (spots k 0 b).length = (under k L).length := by
  induction h with
  | nil => rfl
  | @skip i L b hi h ih => rw [Tomlkit.spots, if_neg (by simp), ← ih, spots_length k b 1 0]
  | @cons p v e L b he h ih =>
    obtain ⟨x, p', rfl⟩ : ∃ x p', p = x :: p' := by cases he <;> exact ⟨_, _, rfl⟩
    obtain ⟨kk, hk, hh⟩ := he.name
    cases hh
    have hnm : e.name = some kk.key := by unfold Entry.name; rw [hk]; rfl
    by_cases hx : kk.key = k
    · subst hx
      rw [under_same, Tomlkit.spots, if_pos hnm, List.length_cons, List.length_cons, ← ih, spots_length _ b 1 0]
    · rw [under_other hx, Tomlkit.spots, if_neg (by rw [hnm]; simpa using hx), ← ih, spots_length k b 1 0]

/-- the entries of the parts of a table -/
theorem DotEnts.parts {k : Str} {L : List (List Str × PyVal)} {b : List Entry} (h : DotEnts M L b) (hne : ∀ q ∈ under k L, q.1 ≠ []) :
    DotEnts M (under k L) ((partsOf k b).flatMap fun t => t.cont.body) := by
  induction h with
  | nil => exact .nil
  | @skip i L b hi h ih =>
    have e1 : partsOf k (.mk none i :: b) = partsOf k b := by
      unfold partsOf; rw [List.filterMap_cons]; simp
    rw [e1]; exact ih hne
  | @cons p v e L b he h ih =>
    obtain ⟨x, p', rfl⟩ : ∃ x p', p = x :: p' := by cases he <;> exact ⟨_, _, rfl⟩
    obtain ⟨kk, hk, hh⟩ := he.name
    cases hh
    have hnm : e.name = some kk.key := by unfold Entry.name; rw [hk]; rfl
    by_cases hx : kk.key = k
    · subst hx
      rw [under_same] at hne ⊢
      have h1 := ih fun q hq => hne q (List.mem_cons_of_mem _ hq)
      have hp := hne _ (List.mem_cons_self ..)
      rcases he.inv with ⟨k, i, h0, _⟩ | ⟨k, a, i, tb, r, h0, rfl, _, hd, hs', ha, hn, hb, hm, hdict, h'⟩
      · exact absurd (by simpa using (List.cons.inj h0).2) hp
      · simp only [Entry.key, Option.some.injEq] at hk
        subst hk
        have h0 := (List.cons.inj h0).2
        subst h0
        have e1 : partsOf k.key (.mk (some k) (.table tb) :: b) = tb :: partsOf k.key b := by
          unfold partsOf; rw [List.filterMap_cons]; simp [Entry.v]
        rw [e1, List.flatMap_cons, hb]
        exact .cons h' h1
    · rw [under_other hx] at hne ⊢
      have e1 : partsOf k (e :: b) = partsOf k b := by
        unfold partsOf; rw [List.filterMap_cons, if_neg (by rw [hnm]; simpa using hx)]
      rw [e1]; exact ih hne

theorem DotEnts.mem {L : List (List Str × PyVal)} {b : List Entry} (h : DotEnts M L b) {e : Entry} (he : e ∈ b) {k : Str} (hk : e.name = some k) :
    ∃ p v, (k :: p, v) ∈ L ∧ DotEnt M (k :: p) v e := by
  induction h with
  | nil => cases he
  | skip hi _ ih =>
    rcases List.mem_cons.1 he with rfl | he
    · simp at hk
    · exact ih he
  | @cons p v _ _ _ he' _ ih =>
    rcases List.mem_cons.1 he with rfl | he
    · obtain ⟨kk, h1, h2⟩ := he'.name
      have : kk.key = k := by unfold Entry.name at hk; rw [h1] at hk; simpa using hk
      subst this
      cases p with
      | nil => cases h2
      | cons x p => cases h2; exact ⟨p, v, List.mem_cons_self .., he'⟩
    · obtain ⟨p, v, h1, h2⟩ := ih he
      exact ⟨p, v, List.mem_cons_of_mem _ h1, h2⟩

/-! ## Containers -/

/-- a container with the entries of the paths -/
structure DotIdx (M : PyVal → Item → Prop) (c : Cont) (L : List (List Str × PyVal)) : Prop where
  index : ∀ k, mapGet k c.map = match spots k 0 c.body with
    | [] => none
    | is => some is
  dict : c.dict = dictOfBody c.body
  ents : DotEnts M L c.body

/-- the same, while it is read -/
structure DotBody (M : PyVal → Item → Prop) (c : Cont) (L : List (List Str × PyVal)) : Prop extends DotIdx M c L where
  parsed : c.parsed = true

theorem DotBody.empty : DotBody M (Cont.empty true) [] := ⟨⟨fun _ => rfl, rfl, .nil⟩, rfl⟩

theorem dictOfBody_snoc (b : List Entry) (k : SKey) (v : Item) : dictOfBody (b ++ [.mk (some k) v]) = dictSet k.key (dictOfBody b) := by
  unfold dictOfBody; rw [List.foldl_append]; rfl

/-- another entry at the end -/
theorem DotBody.push {c : Cont} {L : List (List Str × PyVal)} (h : DotBody M c L) {k : SKey} {i : Item} {p : List Str} {v : PyVal}
    (he : DotEnt M p v (.mk (some k) i)) (tk : List Str) : DotBody M (.mk (c.body ++ [.mk (some k) i]) (mapSet k.key (spots k.key 0 c.body ++ [c.body.length]) c.map)
      (dictSet k.key c.dict) c.parsed tk) (L ++ [(p, v)]) := by
  refine ⟨⟨fun k' => ?_, ?_, h.ents.append (.cons he .nil)⟩, h.parsed⟩
  · rw [Cont.map_mk, Cont.body_mk, mapGet_mapSet, spots_append]
    simp only [Nat.zero_add, spots, Entry.name_mk, Option.map, Option.some.injEq]
    by_cases hk : k.key = k'
    · subst hk
      rw [if_pos rfl, if_pos rfl]
      rcases hs : spots k.key 0 c.body ++ [c.body.length] with _ | ⟨a, r⟩
      · simp at hs
      · rfl
    · rw [if_neg hk, if_neg hk, List.append_nil]
      exact h.index k'
  · rw [Cont.dict_mk, Cont.body_mk, dictOfBody_snoc, h.dict]

theorem DotBody.put {c : Cont} {L : List (List Str × PyVal)} (h : DotBody M c L) {i : Item} (hi : i.isTableLike = false) (tk : List Str) :
    DotBody M (.mk (c.body ++ [.mk none i]) c.map c.dict c.parsed tk) L := by
  refine ⟨⟨fun k' => ?_, ?_, by simpa using h.ents.append (.skip hi .nil)⟩, h.parsed⟩
  · rw [Cont.map_mk, Cont.body_mk, spots_append]
    simp only [spots, Entry.name_mk, Option.map, reduceCtorEq, if_false, List.append_nil]
    exact h.index k'
  · rw [Cont.dict_mk, Cont.body_mk, h.dict]
    unfold dictOfBody
    rw [List.foldl_append]; rfl

/-! ## Appending -/

/-- the name a table gets when it is appended -/
def named (k : SKey) (v : Item) : Item := if v.isTableLike && v.name?.isNone then v.setName k.key else v

theorem setName_tableLike (s : Str) (v : Item) : (v.setName s).isTable = v.isTable ∧ (v.setName s).isAoT = v.isAoT := by
  cases v <;> first | exact ⟨rfl, rfl⟩ | (rename_i tb; cases tb; exact ⟨rfl, rfl⟩)

theorem named_tableLike (k : SKey) (v : Item) : (named k v).isTable = v.isTable ∧ (named k v).isAoT = v.isAoT := by
  unfold named
  split
  · exact setName_tableLike _ v
  · exact ⟨rfl, rfl⟩

theorem prepare_named {c : Cont} (hp : c.parsed = true) (k : SKey) (v : Item) : c.prepare (some k) v = .ok (named k v) := by
  unfold Cont.prepare named
  by_cases hc : (v.isTableLike && v.name?.isNone) = true
  · rw [if_pos hc, if_pos hc]
    dsimp only [Option.map]
    cases hx : v.setName k.key <;> simp [hp]
  · rw [if_neg hc, if_neg hc]
    dsimp only
    cases v <;> simp [hp]

theorem named_same {v : Item} (k : SKey) (h : v.name?.isSome = true) : named k v = v := by
  unfold named
  rw [if_neg]
  cases hn : v.name? <;> simp_all

theorem DotIdx.mem_spots {c : Cont} {L : List (List Str × PyVal)} (h : DotIdx M c L) {k : Str} {j : Nat} (hj : j ∈ spots k 0 c.body) :
    ∃ p v e, c.body[j]? = some e ∧ (k :: p, v) ∈ L ∧ DotEnt M (k :: p) v e := by
  obtain ⟨e, h1, h2, _⟩ := Tomlkit.mem_spots hj
  rw [Nat.sub_zero] at h1
  obtain ⟨p, v, h3, h4⟩ := h.ents.mem (List.mem_of_getElem? h1) h2
  exact ⟨p, v, e, h1, h3, h4⟩

/-- what appending needs of a depth: looking up a key succeeds -/
def DotHas (M : PyVal → Item → Prop) (d : Nat) : Prop :=
  ∀ {c : Cont} {L : List (List Str × PyVal)} (k : Str) (n : Nat), DotBody M c L → Apart L → (∀ q ∈ L, q.1.length ≤ d) → 3 * d + 1 ≤ n →
    ∃ b, Cont.has n c k = .ok b ∧ (b = false ↔ mapGet k c.map = none)

theorem dot_push {d : Nat} (hA : DotHas M d) {c : Cont} {L : List (List Str × PyVal)} (h : DotBody M c L) {k : SKey} {i0 i : Item} {p : List Str}
    {v : PyVal} (hi : named k i0 = i) (he : DotEnt M p v (.mk (some k) i)) (hL : Apart (L ++ [(p, v)])) (hd : ∀ q ∈ L ++ [(p, v)], q.1.length ≤ d)
    {n : Nat} (hn : 3 * d + 2 ≤ n) (al val : Bool) : ∃ c', Cont.append1 n al val c (some k) i0 = .ok (c', false) ∧ DotBody M c' (L ++ [(p, v)]) ∧
      c'.body = c.body ++ [.mk (some k) i] := by
  obtain ⟨m, rfl⟩ : ∃ m, n = m + 1 := ⟨n - 1, by omega⟩
  obtain ⟨b, hb, hb'⟩ := hA k.key m h hL.left (fun q hq => hd q (List.mem_append_left _ hq)) (by omega)
  rw [Cont.append1]
  have hal : ¬ ((al && !c.parsed) = true) := by rw [h.parsed]; simp
  rw [if_neg hal, prepare_named h.parsed, hi]
  dsimp only
  rw [hb]
  have hraw : ∀ (is : List Nat), spots k.key 0 c.body = is → (is ≠ [] → i.isTable = true) → ∃ tk, c.rawAppend (some k) i =
      .ok (.mk (c.body ++ [.mk (some k) i]) (mapSet k.key (spots k.key 0 c.body ++ [c.body.length]) c.map) (dictSet k.key c.dict) c.parsed tk) := by
    intro is his hit
    refine ⟨if i.isTable then c.tableKeys ++ [k.key] else c.tableKeys, ?_⟩
    unfold Cont.rawAppend
    dsimp only
    rw [h.index k.key, his]
    cases is with
    | nil => rfl
    | cons j r =>
      dsimp only
      have hlast : (j :: r).getLast? = some ((j :: r).getLast (by simp)) := List.getLast?_eq_some_getLast _
      rw [hlast]
      obtain ⟨p1, v1, e, q1, q2, q3⟩ := h.mem_spots (k := k.key) (j := (j :: r).getLast (by simp)) (by rw [his]; exact List.getLast_mem _)
      simp only [Option.bind_eq_bind, Option.bind_some, q1]
      have : e.v.isTable = true := by
        rcases q3.inv with ⟨kk, i1, h0, rfl, _⟩ | ⟨kk, a, i1, tb, r1, h0, rfl, _⟩
        · exfalso
          have hp := h0
          have hpr : (k.key :: p1) <+: p := by
            obtain ⟨k', hk', hh⟩ := he.name
            simp only [Entry.key, Option.some.injEq] at hk'
            subst hk'
            obtain ⟨_, rfl⟩ := List.cons.inj h0
            cases p with
            | nil => cases hh
            | cons x p => cases hh; exact List.cons_prefix_cons.2 ⟨rfl, List.nil_prefix⟩
          exact ((List.pairwise_append.1 hL.2).2.2 _ q2 _ (List.mem_singleton.2 rfl)).1 hpr
        · rfl
      rw [if_pos this]
  cases hbb : b with
  | false =>
    rw [hbb] at hb'
    have hnone := hb'.1 rfl
    have hsp : spots k.key 0 c.body = [] := by
      rw [h.index] at hnone
      cases hs : spots k.key 0 c.body with
      | nil => rfl
      | cons => rw [hs] at hnone; cases hnone
    obtain ⟨tk, hraw⟩ := hraw [] hsp (fun h => absurd rfl h)
    dsimp only
    unfold Cont.appendTail
    simp only [h.parsed, Bool.not_true, Bool.and_false, Bool.false_and, Bool.false_eq_true, if_false]
    rw [hraw]
    exact ⟨_, rfl, h.push he tk, rfl⟩
  | true =>
    rw [hbb] at hb'
    have hsome : mapGet k.key c.map ≠ none := by
      intro h0; have := hb'.2 h0; cases this
    rcases hs : spots k.key 0 c.body with _ | ⟨j, r⟩
    · rw [h.index, hs] at hsome; exact absurd rfl hsome
    obtain ⟨p1, v1, e, q1, q2, q3⟩ := h.mem_spots (k := k.key) (j := (j :: r).getLast (by simp)) (by rw [hs]; exact List.getLast_mem _)
    have hapart := (List.pairwise_append.1 hL.2).2.2 _ q2 _ (List.mem_singleton.2 rfl)
    have hlast : c.lastEntry k.key = some ((j :: r).getLast (by simp), e) := by
      unfold Cont.lastEntry
      rw [h.index, hs]
      dsimp only
      rw [List.getLast?_eq_some_getLast (by simp)]
      dsimp only
      rw [q1]
      rfl
    dsimp only
    rw [hlast]
    dsimp only
    -- the new entry is a table
    rcases he.inv with ⟨kk, i1, h0, h1, _⟩ | ⟨kk, a, i1, tb, r1, h0, h1, _, g1, g2, g3, g4, g5, g6, g7, g8⟩
    · exfalso
      simp only [Entry.mk.injEq, Option.some.injEq] at h1
      obtain ⟨rfl, rfl⟩ := h1
      refine hapart.2 ?_
      simp only [h0]
      exact List.cons_prefix_cons.2 ⟨rfl, List.nil_prefix⟩
    simp only [Entry.mk.injEq, Option.some.injEq] at h1
    obtain ⟨h1a, h1b⟩ := h1
    subst h1a
    -- the old one too
    rcases q3.inv with ⟨kk, i2, k0, k1, _⟩ | ⟨kk, a2, i2, ct, r2, k0, k1, _, f1, f2, f3, f4, f5, f6, f7, f8⟩
    · exfalso
      obtain ⟨x1, x2⟩ := List.cons.inj k0
      refine hapart.1 ?_
      simp only [h0, x2]
      exact List.cons_prefix_cons.2 ⟨rfl, List.nil_prefix⟩
    subst k1
    obtain ⟨tk, hraw⟩ := hraw _ hs (fun _ => by rw [h1b]; rfl)
    have hsup : tb.isSuper = true := by unfold Tbl.isSuper; rw [g2]
    have hsup' : ct.isSuper = true := by unfold Tbl.isSuper; rw [f2]
    have hnew := h.push he tk
    subst h1b
    dsimp only
    rw [if_neg (by simp [Entry.v, Item.isTableLike, Item.isTable]), g3]
    simp only [Bool.false_eq_true, if_false, Entry.v, hsup, hsup', if_true, g1, Bool.true_or, h.parsed, Bool.not_true, Bool.and_false, Nat.lt_irrefl,
      hraw]
    cases val with
    | false => exact ⟨_, rfl, by rw [h.parsed] at hnew; exact hnew, rfl⟩
    | true =>
      simp only [if_true]
      rw [h.parsed] at hnew
      obtain ⟨b2, hb2, _⟩ := hA k.key m hnew hL hd (by omega)
      rw [hb2]
      exact ⟨_, rfl, hnew, rfl⟩

theorem dot_fold {d : Nat} (hA : DotHas M d) {n : Nat} (hn : 3 * d + 2 ≤ n) {L1 : List (List Str × PyVal)} {E : List Entry} (hE : DotEnts M L1 E) :
    ∀ {c : Cont} {L0 : List (List Str × PyVal)}, DotBody M c L0 → Apart (L0 ++ L1) → (∀ q ∈ L0 ++ L1, q.1.length ≤ d) →
      ∃ c', foldE (fun p (e : Entry) => (Cont.append1 n true false p e.key e.v).map Prod.fst) c E = .ok c' ∧ DotBody M c' (L0 ++ L1) ∧
        c'.body = c.body ++ E := by
  induction hE with
  | nil => intro c L0 hc _ _; exact ⟨c, rfl, by simpa using hc, by simp⟩
  | @skip i L b hi _ ih =>
    intro c L0 hc hL hd
    obtain ⟨m, rfl⟩ : ∃ m, n = m + 1 := ⟨n - 1, by omega⟩
    have h1 : Cont.append1 (m + 1) true false c none i = .ok (.mk (c.body ++ [.mk none i]) c.map c.dict c.parsed c.tableKeys, false) := by
      rw [Cont.append1, if_neg (by rw [hc.parsed]; simp)]
      have : c.prepare none i = .ok i := by
        unfold Cont.prepare
        rw [hi]
        cases i <;> first | rfl | (cases hi)
      rw [this]
      rfl
    obtain ⟨c', q1, q2, q3⟩ := ih (hc.put hi c.tableKeys) hL hd
    refine ⟨c', ?_, q2, by rw [q3]; simp⟩
    rw [foldE]
    simp only [Entry.key, Entry.v, h1, Except.map]
    exact q1
  | @cons p v e L b he _ ih =>
    intro c L0 hc hL hd
    rw [show L0 ++ (p, v) :: L = (L0 ++ [(p, v)]) ++ L by simp] at hL hd ⊢
    obtain ⟨k, hk, _⟩ := he.name
    rcases e with ⟨key, i⟩
    simp only [Entry.key] at hk
    subst hk
    have hnm : named k i = i := by
      rcases he.inv with ⟨kk, i1, h0, h1, _, h3⟩ | ⟨kk, a, i1, tb, r1, h0, h1, _, g1, g2, g3, g4, _⟩
      · simp only [Entry.mk.injEq, Option.some.injEq] at h1
        rw [h1.2]
        unfold named
        rw [if_neg (by rw [h3]; simp)]
      · simp only [Entry.mk.injEq, Option.some.injEq] at h1
        rw [h1.2]
        refine named_same _ ?_
        cases tb; exact g4
    obtain ⟨c1, q1, q2, q3⟩ := dot_push hA hc hnm he hL.left (fun q hq => hd q (List.mem_append_left _ hq)) hn true false
    obtain ⟨c', r1, r2, r3⟩ := ih q2 hL hd
    refine ⟨c', ?_, r2, by rw [r3, q3]; simp⟩
    rw [foldE]
    simp only [Entry.key, Entry.v, q1, Except.map]
    exact r1

/-- the scratch container of a table in several parts -/
theorem dot_proxy {d : Nat} (hA : DotHas M d) {n : Nat} (hn : 3 * d + 3 ≤ n) {L : List (List Str × PyVal)} {c : Cont} {is : List Nat}
    (hE : DotEnts M L ((tablesAt c.body is).flatMap fun t => t.cont.body)) (hL : Apart L) (hd : ∀ q ∈ L, q.1.length ≤ d) :
    ∃ pc, Cont.mkProxy n c is = .ok pc ∧ DotBody M pc L ∧ pc.body = (tablesAt c.body is).flatMap fun t => t.cont.body := by
  obtain ⟨m, rfl⟩ : ∃ m, n = m + 1 := ⟨n - 1, by omega⟩
  obtain ⟨pc, h1, h2, h3⟩ := dot_fold (n := m) hA (by omega) hE DotBody.empty hL hd
  rw [List.nil_append] at h2
  refine ⟨pc, ?_, h2, h3⟩
  rw [Cont.mkProxy, h1]
  dsimp only
  have hfold : ∀ ks : List Str, foldE (fun _ k => (Cont.has m pc k).map fun _ => ()) () ks = .ok () := by
    intro ks
    induction ks with
    | nil => rfl
    | cons k r ih =>
      obtain ⟨b, hb, _⟩ := hA k m h2 hL hd (by omega)
      rw [foldE, hb]
      exact ih
  rw [hfold]

theorem dot_has : ∀ d, DotHas M d := by
  intro d
  induction d with
  | zero =>
    intro c L k n hc hL hd hn
    have : L = [] := by
      cases L with
      | nil => rfl
      | cons q L =>
        have h1 := hd q (List.mem_cons_self ..)
        have h2 := hL.1 q (List.mem_cons_self ..)
        exact absurd (List.length_eq_zero_iff.1 (Nat.le_zero.1 h1)) h2
    subst this
    obtain ⟨m, rfl⟩ : ∃ m, n = m + 1 := ⟨n - 1, by omega⟩
    have hs := hc.ents.spots (k := k)
    have h0 : mapGet k c.map = none := by
      rw [hc.index]
      rw [show under k [] = [] from rfl, List.length_nil, List.length_eq_zero_iff] at hs
      rw [hs]
    exact ⟨false, has_absent h0, by simp [h0]⟩
  | succ d ih =>
    intro c L k n hc hL hd hn
    obtain ⟨m, rfl⟩ : ∃ m, n = m + 1 := ⟨n - 1, by omega⟩
    have hs := hc.ents.spots (k := k)
    have hi := hc.index k
    rcases hsp : spots k 0 c.body with _ | ⟨j, _ | ⟨j2, r⟩⟩
    · rw [hsp] at hi
      exact ⟨false, has_absent hi, by simp [hi]⟩
    · rw [hsp] at hi
      exact ⟨true, has_single hi, by simp [hi]⟩
    · rw [hsp] at hi hs
      dsimp only at hi
      have hu : Apart (under k L) := hL.under (by rw [← hs]; simp)
      have hp := hc.ents.parts (k := k) hu.1
      have ht := tablesAt_spots k c.body []
      simp only [List.nil_append, List.length_nil] at ht
      rw [hsp] at ht
      rw [← ht] at hp
      obtain ⟨pc, q1, _⟩ := dot_proxy (n := m) ih (by omega) hp hu (fun q hq => by
        have := hd _ (mem_under.1 hq)
        simp at this; omega)
      refine ⟨true, ?_, by simp [hi]⟩
      rw [Cont.has, hi]
      dsimp only
      rw [q1]
      rfl

end Tomlkit
