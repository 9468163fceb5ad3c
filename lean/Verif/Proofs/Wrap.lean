import Verif.Proofs.SortKeys
import Verif.Proofs.Build
/-!
# Items built from Python values hold them (C22)
-/
namespace Tomlkit
open Spec

theorem item_single {c : Cont} {k : Str} {i : Item} : c.item k = .ok (.inl i) ↔
    ∃ n e, mapGet k c.map = some [n] ∧ c.body[n]? = some e ∧ e.v = i := by
  unfold Cont.item
  rcases mapGet k c.map with _ | is
  · simp
  rcases is with _ | ⟨a, _ | ⟨b, r⟩⟩
  · simp
  · dsimp only
    rcases h : c.body[a]? with _ | e
    · simp [h]
    · simp [h]
  · simp

theorem holds_setTrivia {v : PyVal} {i : Item} (t : Trivia) (h : Holds v i) : Holds v (i.setTrivia t) := by
  cases v <;> unfold Holds at h ⊢
  case bool => obtain ⟨_, rfl⟩ := h; exact ⟨_, rfl⟩
  case int => obtain ⟨_, _, rfl⟩ := h; exact ⟨_, _, rfl⟩
  case str => obtain ⟨_, _, _, rfl⟩ := h; exact ⟨_, _, _, rfl⟩
  case date => obtain ⟨_, _, rfl⟩ := h; exact ⟨_, _, rfl⟩
  case time => obtain ⟨_, _, rfl⟩ := h; exact ⟨_, _, rfl⟩
  case datetime => obtain ⟨_, _, rfl⟩ := h; exact ⟨_, _, rfl⟩
  case float => obtain ⟨_, _, rfl⟩ := h; exact ⟨_, _, rfl⟩
  case none => exact h
  case list =>
    rcases h with ⟨_, _, _, rfl, h⟩ | ⟨_, _, _, _, rfl, h⟩
    · exact Or.inl ⟨_, _, _, rfl, h⟩
    · exact Or.inr ⟨_, _, _, _, rfl, h⟩
  case dict =>
    obtain ⟨c, hc, h⟩ := h
    refine ⟨c, ?_, h⟩
    rw [← hc]
    rcases i with _ | _ | _ | _ | _ | _ | _ | _ | _ | _ | _ | ⟨c, t, a, s, n, d⟩ | _ | _ <;> rfl

theorem holds_setName {v : PyVal} {i : Item} (n : Str) (h : Holds v i) : Holds v (i.setName n) := by
  cases v <;> unfold Holds at h ⊢
  case bool => obtain ⟨_, rfl⟩ := h; exact ⟨_, rfl⟩
  case int => obtain ⟨_, _, rfl⟩ := h; exact ⟨_, _, rfl⟩
  case str => obtain ⟨_, _, _, rfl⟩ := h; exact ⟨_, _, _, rfl⟩
  case date => obtain ⟨_, _, rfl⟩ := h; exact ⟨_, _, rfl⟩
  case time => obtain ⟨_, _, rfl⟩ := h; exact ⟨_, _, rfl⟩
  case datetime => obtain ⟨_, _, rfl⟩ := h; exact ⟨_, _, rfl⟩
  case float => obtain ⟨_, _, rfl⟩ := h; exact ⟨_, _, rfl⟩
  case none => exact h
  case list =>
    rcases h with ⟨_, _, _, rfl, h⟩ | ⟨_, _, _, _, rfl, h⟩
    · exact Or.inl ⟨_, _, _, rfl, h⟩
    · exact Or.inr ⟨_, _, _, _, rfl, h⟩
  case dict =>
    obtain ⟨c, hc, h⟩ := h
    refine ⟨c, ?_, h⟩
    rw [← hc]
    rcases i with _ | _ | _ | _ | _ | _ | _ | _ | _ | _ | _ | ⟨c, t, a, s, n, d⟩ | _ | _ <;> rfl

theorem invalidateBody_get (m : List (Str × List Nat)) (b : List Entry) : ∀ (s j : Nat),
    (invalidateBody m s b)[j]? = (b[j]?).map (Entry.invalidate m (s + j)) := by
  induction b with
  | nil => intro s j; simp [invalidateBody]
  | cons e r ih =>
    intro s j
    unfold invalidateBody
    rcases j with _ | j
    · rfl
    · rw [List.getElem?_cons_succ, List.getElem?_cons_succ, ih]
      congr 2; omega

mutual
theorem holds_invalidate : ∀ (v : PyVal) {i : Item}, Holds v i → Holds v i.invalidate
  | .bool _, _, h => by unfold Holds at h ⊢; obtain ⟨_, rfl⟩ := h; exact ⟨_, rfl⟩
  | .int _, _, h => by unfold Holds at h ⊢; obtain ⟨_, _, rfl⟩ := h; exact ⟨_, _, rfl⟩
  | .str _, _, h => by unfold Holds at h ⊢; obtain ⟨_, _, _, rfl⟩ := h; exact ⟨_, _, _, rfl⟩
  | .date _, _, h => by unfold Holds at h ⊢; obtain ⟨_, _, rfl⟩ := h; exact ⟨_, _, rfl⟩
  | .time _, _, h => by unfold Holds at h ⊢; obtain ⟨_, _, rfl⟩ := h; exact ⟨_, _, rfl⟩
  | .datetime _, _, h => by unfold Holds at h ⊢; obtain ⟨_, _, rfl⟩ := h; exact ⟨_, _, rfl⟩
  | .float _, _, h => by unfold Holds at h ⊢; obtain ⟨_, _, rfl⟩ := h; exact ⟨_, _, rfl⟩
  | .none, _, h => by unfold Holds at h; exact h.elim
  | .list l, i, h => by
    unfold Holds at h ⊢
    rcases h with ⟨_, _, _, rfl, h⟩ | ⟨ts, t, n, p, rfl, h⟩
    · exact Or.inl ⟨_, _, _, rfl, h⟩
    · exact Or.inr ⟨_, _, _, _, rfl, holdsAll_invalidate l ts h⟩
  | .dict l, i, h => by
    unfold Holds at h ⊢
    obtain ⟨c, hc, h1, h2⟩ := h
    rcases i with _ | _ | _ | _ | _ | _ | _ | _ | _ | _ | ⟨c, t, n⟩ | ⟨⟨b, m, d, p, tk⟩, t, a, s, n, d⟩ | _ | _ <;> try (cases hc; done)
    · cases hc; exact ⟨_, rfl, h1, h2⟩
    · cases hc
      exact ⟨.mk (invalidateBody m 0 b) m _ p tk, rfl, h1, holdsIn_invalidate l h2⟩
theorem holdsAll_invalidate : ∀ (l : List PyVal) (ts : List Tbl), HoldsAll l (ts.map Item.table) →
    HoldsAll l ((invalidateAll ts).map Item.table)
  | [], ts, h => by
    unfold HoldsAll at h ⊢
    rw [List.map_eq_nil_iff] at h; subst h; rfl
  | v :: r, ts, h => by
    unfold HoldsAll at h ⊢
    obtain ⟨i, is', h0, h1, h2⟩ := h
    rcases ts with _ | ⟨t, tr⟩
    · cases h0
    cases h0
    exact ⟨_, _, rfl, holds_invalidate v h1, holdsAll_invalidate r tr h2⟩
theorem holdsIn_invalidate : ∀ (l : List PyPair) {b : List Entry} {m : List (Str × List Nat)} {d : List Str} {p : Bool} {tk : List Str},
    HoldsIn l (.mk b m d p tk) → HoldsIn l (.mk (invalidateBody m 0 b) m d p tk)
  | [], _, _, _, _, _, h => by unfold HoldsIn; trivial
  | .mk k v :: r, b, m, d, p, tk, h => by
    unfold HoldsIn at h ⊢
    refine ⟨?_, holdsIn_invalidate r h.2⟩
    have h1 := h.1
    unfold HoldsPair at h1 ⊢
    obtain ⟨i, hi, hv⟩ := h1
    obtain ⟨n, e, g1, g2, g3⟩ := item_single.1 hi
    rw [Cont.map_mk] at g1
    rw [Cont.body_mk] at g2
    refine ⟨(e.invalidate m n).v, item_single.2 ⟨n, e.invalidate m n, g1, ?_, rfl⟩, ?_⟩
    · rw [Cont.body_mk, invalidateBody_get, g2, Nat.zero_add]; rfl
    · rcases e with ⟨_ | key, w⟩
      · rw [Entry.v_mk] at g3; subst g3; exact hv
      · rw [Entry.v_mk] at g3; subst g3
        unfold Entry.invalidate
        rw [Entry.v_mk]
        split
        · exact holds_invalidate v hv
        · exact hv
end

theorem holds_kind {v : PyVal} {i : Item} (h : Holds v i) : i.isWhitespace = false ∧ i.isComment = false ∧ i.isNull = false := by
  cases v <;> unfold Holds at h
  case bool => obtain ⟨_, rfl⟩ := h; exact ⟨rfl, rfl, rfl⟩
  case int => obtain ⟨_, _, rfl⟩ := h; exact ⟨rfl, rfl, rfl⟩
  case str => obtain ⟨_, _, _, rfl⟩ := h; exact ⟨rfl, rfl, rfl⟩
  case date => obtain ⟨_, _, rfl⟩ := h; exact ⟨rfl, rfl, rfl⟩
  case time => obtain ⟨_, _, rfl⟩ := h; exact ⟨rfl, rfl, rfl⟩
  case datetime => obtain ⟨_, _, rfl⟩ := h; exact ⟨rfl, rfl, rfl⟩
  case float => obtain ⟨_, _, rfl⟩ := h; exact ⟨rfl, rfl, rfl⟩
  case none => exact h.elim
  case list => rcases h with ⟨_, _, _, rfl, h⟩ | ⟨_, _, _, _, rfl, h⟩ <;> exact ⟨rfl, rfl, rfl⟩
  case dict =>
    obtain ⟨c, hc, h⟩ := h
    rcases i with _ | _ | _ | _ | _ | _ | _ | _ | _ | _ | _ | _ | _ | _ <;>
      first | (cases hc; done) | exact ⟨rfl, rfl, rfl⟩

/-! ## Unwrapping -/

theorem holdsAll_mem : ∀ {l : List PyVal} {is : List Item}, HoldsAll l is → ∀ i ∈ is, ∃ v, Holds v i
  | [], is, h, i, hi => by unfold HoldsAll at h; subst h; cases hi
  | v :: r, is, h, i, hi => by
    unfold HoldsAll at h
    obtain ⟨i0, is', rfl, h1, h2⟩ := h
    rcases List.mem_cons.1 hi with rfl | hi
    · exact ⟨v, h1⟩
    · exact holdsAll_mem h2 i hi

theorem unwrap_elems (gs : List AGroup) (h : ∀ i ∈ printed gs, i.isWhitespace = false ∧ i.isComment = false ∧ i.isNull = false) :
    (gs.flatMap fun g => match g with
        | .noval .. => []
        | .val _ v _ _ => if v.isWhitespace || v.isComment || v.isNull then [] else [v]) = printed gs := by
  induction gs with
  | nil => rfl
  | cons g r ih =>
    rw [List.flatMap_cons]
    rcases g with _ | ⟨i, v, c, m⟩
    · exact ih h
    · unfold printed at h ⊢
      dsimp only
      by_cases hv : v.isNull = true
      · rw [if_pos hv] at h ⊢
        rw [if_pos (by simp [hv]), List.nil_append]
        exact ih h
      · rw [if_neg hv] at h ⊢
        obtain ⟨h1, h2, h3⟩ := h v (List.mem_cons_self ..)
        rw [if_neg (by simp [h1, h2, h3]), ih fun i hi => h i (List.mem_cons_of_mem _ hi)]
        rfl

mutual
/-- `unwrap()` gives the value that the item holds -/
theorem holds_unwrap : ∀ (v : PyVal) {i : Item}, Holds v i → ∃ n0, ∀ n ≥ n0, i.unwrap n = .ok v
  | .bool _, _, h => by
    unfold Holds at h; obtain ⟨_, rfl⟩ := h
    refine ⟨1, fun n hn => ?_⟩
    obtain ⟨m, rfl⟩ : ∃ m, n = m + 1 := ⟨n - 1, by omega⟩
    rw [Item.unwrap]
  | .int _, _, h => by
    unfold Holds at h; obtain ⟨_, _, rfl⟩ := h
    refine ⟨1, fun n hn => ?_⟩
    obtain ⟨m, rfl⟩ : ∃ m, n = m + 1 := ⟨n - 1, by omega⟩
    rw [Item.unwrap]
  | .str _, _, h => by
    unfold Holds at h; obtain ⟨_, _, _, rfl⟩ := h
    refine ⟨1, fun n hn => ?_⟩
    obtain ⟨m, rfl⟩ : ∃ m, n = m + 1 := ⟨n - 1, by omega⟩
    rw [Item.unwrap]
  | .date _, _, h => by
    unfold Holds at h; obtain ⟨_, _, rfl⟩ := h
    refine ⟨1, fun n hn => ?_⟩
    obtain ⟨m, rfl⟩ : ∃ m, n = m + 1 := ⟨n - 1, by omega⟩
    rw [Item.unwrap]
  | .time _, _, h => by
    unfold Holds at h; obtain ⟨_, _, rfl⟩ := h
    refine ⟨1, fun n hn => ?_⟩
    obtain ⟨m, rfl⟩ : ∃ m, n = m + 1 := ⟨n - 1, by omega⟩
    rw [Item.unwrap]
  | .datetime _, _, h => by
    unfold Holds at h; obtain ⟨_, _, rfl⟩ := h
    refine ⟨1, fun n hn => ?_⟩
    obtain ⟨m, rfl⟩ : ∃ m, n = m + 1 := ⟨n - 1, by omega⟩
    rw [Item.unwrap]
  | .float _, _, h => by
    unfold Holds at h; obtain ⟨_, _, rfl⟩ := h
    refine ⟨1, fun n hn => ?_⟩
    obtain ⟨m, rfl⟩ : ∃ m, n = m + 1 := ⟨n - 1, by omega⟩
    rw [Item.unwrap]
  | .none, _, h => by unfold Holds at h; exact h.elim
  | .list l, i, h => by
    unfold Holds at h
    rcases h with ⟨gs, _, _, rfl, h⟩ | ⟨ts, t, n, p, rfl, h⟩
    · obtain ⟨n0, hn0⟩ := holdsAll_unwrap l h
      refine ⟨n0 + 1, fun n hn => ?_⟩
      obtain ⟨m, rfl⟩ : ∃ m, n = m + 1 := ⟨n - 1, by omega⟩
      rw [Item.unwrap]
      try dsimp only
      refine (congrArg (fun x => Except.map PyVal.list (unwrapAll m x)) (unwrap_elems gs fun i hi => by
        obtain ⟨v, hv⟩ := holdsAll_mem h i hi; exact holds_kind hv)).trans ?_
      rw [hn0 m (by omega)]
      rfl
    · obtain ⟨n0, hn0⟩ := holdsAll_unwrap l h
      refine ⟨n0 + 1, fun n hn => ?_⟩
      obtain ⟨m, rfl⟩ : ∃ m, n = m + 1 := ⟨n - 1, by omega⟩
      rw [Item.unwrap]
      try dsimp only
      rw [hn0 m (by omega)]
      rfl
  | .dict l, i, h => by
    unfold Holds at h
    obtain ⟨c, hc, h1, h2⟩ := h
    obtain ⟨n0, hn0⟩ := holdsIn_unwrap l h2
    have hcu : ∀ n ≥ n0 + 1, Cont.unwrap n c = .ok l := by
      intro n hn
      obtain ⟨m, rfl⟩ : ∃ m, n = m + 1 := ⟨n - 1, by omega⟩
      rw [Cont.unwrap, h1, hn0 m (by omega)]
    refine ⟨n0 + 2, fun n hn => ?_⟩
    obtain ⟨m, rfl⟩ : ∃ m, n = m + 1 := ⟨n - 1, by omega⟩
    rcases i with _ | _ | _ | _ | _ | _ | _ | _ | _ | _ | ⟨c, t, n⟩ | tb | _ | _ <;> try (cases hc; done)
    · cases hc
      rw [Item.unwrap]
      try dsimp only
      rw [hcu m (by omega)]; rfl
    · cases hc
      rw [Item.unwrap]
      try dsimp only
      rw [hcu m (by omega)]; rfl
theorem holdsAll_unwrap : ∀ (l : List PyVal) {is : List Item}, HoldsAll l is → ∃ n0, ∀ n ≥ n0, unwrapAll n is = .ok l
  | [], is, h => by
    unfold HoldsAll at h; subst h
    refine ⟨1, fun n hn => ?_⟩
    obtain ⟨m, rfl⟩ : ∃ m, n = m + 1 := ⟨n - 1, by omega⟩
    rw [unwrapAll]
  | v :: r, is, h => by
    unfold HoldsAll at h
    obtain ⟨i, is', rfl, h1, h2⟩ := h
    obtain ⟨n1, hn1⟩ := holds_unwrap v h1
    obtain ⟨n2, hn2⟩ := holdsAll_unwrap r h2
    refine ⟨n1 + n2 + 1, fun n hn => ?_⟩
    obtain ⟨m, rfl⟩ : ∃ m, n = m + 1 := ⟨n - 1, by omega⟩
    rw [unwrapAll, hn1 m (by omega)]
    dsimp only
    rw [hn2 m (by omega)]; rfl
theorem holdsIn_unwrap : ∀ (l : List PyPair) {c : Cont}, HoldsIn l c → ∃ n0, ∀ n ≥ n0, unwrapKeys n c (l.map PyPair.key) = .ok l
  | [], c, h => by
    refine ⟨1, fun n hn => ?_⟩
    obtain ⟨m, rfl⟩ : ∃ m, n = m + 1 := ⟨n - 1, by omega⟩
    rw [List.map_nil, unwrapKeys]
  | .mk k v :: r, c, h => by
    unfold HoldsIn at h
    have h1 := h.1
    unfold HoldsPair at h1
    obtain ⟨i, hi, hv⟩ := h1
    obtain ⟨n1, hn1⟩ := holds_unwrap v hv
    obtain ⟨n2, hn2⟩ := holdsIn_unwrap r h.2
    refine ⟨n1 + n2 + 2, fun n hn => ?_⟩
    obtain ⟨m, rfl⟩ : ∃ m, n = m + 2 := ⟨n - 2, by omega⟩
    rw [List.map_cons, unwrapKeys, PyPair.key_mk, unwrapKey, hi]
    dsimp only
    rw [hn1 m (by omega)]
    dsimp only
    rw [hn2 (m + 1) (by omega)]; rfl
end

/-! ## Building -/

/-- every value held by the first item is held by the second -/
def Kept (i w : Item) : Prop := ∀ v, Holds v i → Holds v w

theorem kept_prepare {c : Cont} {k : SKey} {v w : Item} (h : c.prepare (some k) v = .ok w) : Kept v w := by
  intro x hx
  unfold Cont.prepare at h
  generalize hv : (if v.isTableLike && v.name?.isNone then (some k).map fun k => v.setName k.key else some v) = o at h
  have hx' : ∀ v', o = some v' → Holds x v' := by
    intro v' ho
    rw [← hv] at ho
    split at ho
    · cases ho; exact holds_setName _ hx
    · cases ho; exact hx
  rcases o with _ | v'
  · cases h
  have hxv := hx' v' rfl
  rcases v' with _ | _ | _ | _ | _ | _ | _ | _ | _ | _ | _ | tb | ⟨ts, t, nm, p⟩ | _ <;> dsimp only at h <;>
    try (cases h; exact hxv)
  · have h2 : Holds x (.table (if c.parsed = true then tb else tb.invalidate)) := by
      split
      · exact hxv
      · exact holds_invalidate x hxv
    generalize (if c.parsed = true then tb else tb.invalidate) = tb2 at h h2
    split at h
    · cases h; exact holds_setTrivia _ h2
    · cases h; exact h2
  · split at h
    · have h2 : Holds x (.aot (invalidateAll ts) t nm p) := holds_invalidate x hxv
      rcases hi : invalidateAll ts with _ | ⟨a, r⟩ <;> rw [hi] at h h2 <;> dsimp only at h
      · cases h; exact h2
      · split at h
        · cases h; exact h2
        · cases h
          cases x <;> unfold Holds at h2
          case bool => obtain ⟨_, h⟩ := h2; cases h
          case int => obtain ⟨_, _, h⟩ := h2; cases h
          case str => obtain ⟨_, _, _, h⟩ := h2; cases h
          case date => obtain ⟨_, _, h⟩ := h2; cases h
          case time => obtain ⟨_, _, h⟩ := h2; cases h
          case datetime => obtain ⟨_, _, h⟩ := h2; cases h
          case float => obtain ⟨_, _, h⟩ := h2; cases h
          case none => exact h2.elim
          case dict => obtain ⟨_, h, _⟩ := h2; cases h
          case list l =>
            rcases h2 with ⟨_, _, _, h, _⟩ | ⟨_, _, _, _, h, h2⟩
            · cases h
            · cases h
              unfold Holds
              refine Or.inr ⟨_, _, _, _, rfl, ?_⟩
              rcases l with _ | ⟨y, l⟩
              · unfold HoldsAll at h2; cases h2
              · unfold HoldsAll at h2 ⊢
                obtain ⟨i0, is0, e0, e1, e2⟩ := h2
                rw [List.map_cons] at e0
                cases e0
                exact ⟨_, _, rfl, holds_setTrivia (v := y) (i := .table a) _ e1, e2⟩
    · cases h; exact hxv

theorem kept_closeLine {ps : List Entry} {key : Option SKey} {v : Item} (h : .mk key v ∈ ps) :
    ∃ w, .mk key w ∈ closeLine ps ∧ Kept v w := by
  obtain ⟨j, hj⟩ := List.getElem?_of_mem h
  have : (closeLine ps)[j]? = some (.mk key v) ∨ ∃ t, (closeLine ps)[j]? = some (.mk key (v.setTrivia t)) := by
    unfold closeLine addTrailNl
    rw [List.getElem?_modify, hj]
    by_cases hc : ps.length - 1 = j
    · simp only [hc, if_true, Option.map_some, Option.map_eq_map]
      split
      · left; rfl
      · right; exact ⟨_, rfl⟩
    · left; simp [hc]
  rcases this with h1 | ⟨t, h1⟩
  · exact ⟨v, List.mem_of_getElem? h1, fun _ h => h⟩
  · exact ⟨_, List.mem_of_getElem? h1, fun _ h => holds_setTrivia t h⟩

/-- one assignment of a new key -/
theorem built_step {c : Cont} {ps ts : List Entry} (h : Built c ps ts) {k : Str} {v : Item} (hk : mapGet k c.map = none)
    (h2 : v.isNull = false) (h3 : v.isWhitespace = false) :
    ∃ c' ps' ts', c.setItemIndented [] k v = .ok c' ∧ Built c' ps' ts' ∧ c'.dict = c.dict ++ [k] ∧
      (∃ w, .mk (some (mkKey k)) w ∈ c'.body ∧ Kept v w) ∧
      ∀ key w, .mk key w ∈ c.body → ∃ w', .mk key w' ∈ c'.body ∧ Kept w w' := by
  by_cases h1 : v.isTableLike = true
  · obtain ⟨w, hw, hw1, hw2⟩ := prepare_kind (c := c) (k := mkKey k) (v := v)
    obtain ⟨c', e1, e2, e3⟩ := built_table h hk hw (by unfold Item.isTableLike at h1 ⊢; rw [hw1, hw2]; exact h1)
    refine ⟨c', _, _, e1, e2, e3, ⟨w, ?_, kept_prepare hw⟩, ?_⟩
    · rw [e2.body]; simp
    · intro key w0 hw0
      refine ⟨w0, ?_, fun _ h => h⟩
      rw [e2.body, ← List.append_assoc, ← h.body]; exact List.mem_append_left _ hw0
  · obtain ⟨c', e1, e2, e3⟩ := built_plain h hk (by simpa using h1) h2 h3
    refine ⟨c', _, _, e1, e2, e3, ⟨v, ?_, fun _ h => h⟩, ?_⟩
    · rw [e2.body]; simp
    · intro key w0 hw0
      rw [h.body, List.mem_append] at hw0
      rw [e2.body]
      rcases hw0 with hw0 | hw0
      · obtain ⟨w, g1, g2⟩ := kept_closeLine hw0
        exact ⟨w, by simp [g1], g2⟩
      · exact ⟨w0, by simp [hw0], fun _ h => h⟩

theorem kept_trans {a b c : Item} (h1 : Kept a b) (h2 : Kept b c) : Kept a c := fun v h => h2 v (h1 v h)

/-- assignments of distinct new keys -/
theorem built_fold {α : Type} (kf : α → Str) (vf : α → Item) (cs : List α) : ∀ {c : Cont} {ps ts : List Entry}, Built c ps ts →
    (∀ ch ∈ cs, (vf ch).isNull = false ∧ (vf ch).isWhitespace = false) → (c.dict ++ cs.map kf).Nodup →
    ∃ c' ps' ts', foldE (fun c ch => c.setItemIndented [] (kf ch) (vf ch)) c cs = .ok c' ∧ Built c' ps' ts' ∧
      c'.dict = c.dict ++ cs.map kf ∧
      (∀ ch ∈ cs, ∃ w, .mk (some (mkKey (kf ch))) w ∈ c'.body ∧ Kept (vf ch) w) ∧
      ∀ key w, .mk key w ∈ c.body → ∃ w', .mk key w' ∈ c'.body ∧ Kept w w' := by
  induction cs with
  | nil =>
    intro c ps ts h _ _
    exact ⟨c, ps, ts, rfl, h, by simp, (fun ch hc => by cases hc), fun key w hw => ⟨w, hw, fun _ h => h⟩⟩
  | cons x r ih =>
    intro c ps ts h hv hd
    have hx : kf x ∉ c.dict := by
      rw [List.nodup_append] at hd
      intro hm
      exact hd.2.2 _ hm (kf x) (by simp) rfl
    have hk : mapGet (kf x) c.map = none := by
      rcases hm : mapGet (kf x) c.map with _ | is
      · rfl
      · exact absurd ((h.wf.dictMem _).2 (by rw [hm]; rfl)) hx
    obtain ⟨c1, ps1, ts1, e1, e2, e3, ⟨w, e4, e5⟩, e6⟩ := built_step h hk (hv x (List.mem_cons_self ..)).1 (hv x (List.mem_cons_self ..)).2
    obtain ⟨c2, ps2, ts2, f1, f2, f3, f4, f5⟩ := ih e2 (fun ch hc => hv ch (List.mem_cons_of_mem _ hc)) (by rw [e3]; simpa using hd)
    refine ⟨c2, ps2, ts2, ?_, f2, by rw [f3, e3]; simp, ?_, ?_⟩
    · unfold foldE
      rw [e1]; exact f1
    · intro ch hc
      rcases List.mem_cons.1 hc with rfl | hc
      · obtain ⟨w', g1, g2⟩ := f5 _ _ e4
        exact ⟨w', g1, kept_trans e5 g2⟩
      · exact f4 ch hc
    · intro key w0 hw0
      obtain ⟨w1, g1, g2⟩ := e6 key w0 hw0
      obtain ⟨w2, g3, g4⟩ := f5 key w1 g1
      exact ⟨w2, g3, kept_trans g2 g4⟩

/-- such a container holds the dict of the values -/
theorem built_holds {c : Cont} {ps ts : List Entry} (h : Built c ps ts) : ∀ (l : List PyPair),
    (∀ k v, .mk k v ∈ l → ∃ w, .mk (some (mkKey k)) w ∈ c.body ∧ Holds v w) → HoldsIn l c
  | [], _ => by unfold HoldsIn; trivial
  | .mk k v :: r, hl => by
    unfold HoldsIn
    refine ⟨?_, built_holds h r fun k v hm => hl k v (List.mem_cons_of_mem _ hm)⟩
    obtain ⟨w, h1, h2⟩ := hl k v (List.mem_cons_self ..)
    unfold HoldsPair
    obtain ⟨i, h3, h4⟩ := mem_of_nodup_name h h1
    rw [mkKey_key] at h3
    exact ⟨w, item_single.2 ⟨i, _, h3, h4, rfl⟩, h2⟩

/-! ## Conversion -/

theorem dictOrder_perm (s : Bool) (l : List Child) : (dictOrder s l).Perm l := by
  unfold dictOrder
  split
  · exact sortBy_perm _ _
  · exact List.Perm.refl _

theorem elemOrder_perm (s : Bool) (l : List Child) : (elemOrder s l).Perm l := sortBy_perm _ _

/-- the values of the children, in the order of the children -/
theorem choose_values (l : List PyPair) : ∀ (cs : List Child),
    (∀ ch ∈ cs, ∃ v w, .mk ch.key v ∈ l ∧ Same v w ∧ Holds w ch.item) →
    ∃ l' : List PyPair, l'.map PyPair.key = cs.map Child.key ∧
      (∀ k w, .mk k w ∈ l' → ∃ ch ∈ cs, ch.key = k ∧ Holds w ch.item ∧ ∃ v, .mk k v ∈ l ∧ Same v w)
  | [], _ => ⟨[], rfl, fun k w h => by cases h⟩
  | ch :: r, h => by
    obtain ⟨v, w, h1, h2, h3⟩ := h ch (List.mem_cons_self ..)
    obtain ⟨l', g1, g2⟩ := choose_values l r fun x hx => h x (List.mem_cons_of_mem _ hx)
    refine ⟨.mk ch.key w :: l', by simp [g1], ?_⟩
    intro k w' hw
    rcases List.mem_cons.1 hw with e | hw
    · cases e; exact ⟨ch, List.mem_cons_self .., rfl, h3, v, h1, h2⟩
    · obtain ⟨x, hx, e1, e2⟩ := g2 k w' hw
      exact ⟨x, List.mem_cons_of_mem _ hx, e1, e2⟩

theorem sameIn_of {l l' : List PyPair} (h : ∀ k v, .mk k v ∈ l → ∃ w, .mk k w ∈ l' ∧ Same v w) : SameIn l l' := by
  induction l with
  | nil => unfold SameIn; trivial
  | cons p r ih =>
    unfold SameIn
    refine ⟨?_, ih fun k v hm => h k v (List.mem_cons_of_mem _ hm)⟩
    rcases p with ⟨k, v⟩
    exact h k v (List.mem_cons_self ..)

theorem pair_unique {l : List PyPair} (hd : (l.map PyPair.key).Nodup) {k : Str} {v w : PyVal} (hv : .mk k v ∈ l) (hw : .mk k w ∈ l) :
    v = w := by
  induction l with
  | nil => cases hv
  | cons x r ih =>
    rw [List.map_cons, List.nodup_cons] at hd
    rcases List.mem_cons.1 hv with hv' | hv' <;> rcases List.mem_cons.1 hw with hw' | hw'
    · rw [← hw'] at hv'; cases hv'; rfl
    · rw [← hv'] at hd; exact absurd (List.mem_map.2 ⟨PyPair.mk k w, hw', rfl⟩ : k ∈ r.map PyPair.key) hd.1
    · rw [← hw'] at hd; exact absurd (List.mem_map.2 ⟨PyPair.mk k v, hv', rfl⟩ : k ∈ r.map PyPair.key) hd.1
    · exact ih hd.2 hv' hw'

/-- a container built from the children of a dict, in any order, holds the dict -/
theorem dict_holds {l : List PyPair} (hd : (l.map PyPair.key).Nodup) {cs cs' : List Child} (hcs : cs.map Child.key = l.map PyPair.key)
    (hp : cs'.Perm cs) (hh : ∀ ch ∈ cs, ∃ v w, .mk ch.key v ∈ l ∧ Same v w ∧ Holds w ch.item) {vf : Child → Item}
    (hvf : ∀ ch, Kept ch.item (vf ch)) :
    ∃ c l' ps ts, foldE (fun c ch => c.setItemIndented [] (Child.key ch) (vf ch)) (Cont.empty false) cs' = .ok c ∧ Built c ps ts ∧
      c.dict = l'.map PyPair.key ∧ HoldsIn l' c ∧ Same (.dict l) (.dict l') := by
  have hkeys : (cs'.map Child.key).Perm (l.map PyPair.key) := by rw [← hcs]; exact hp.map _
  have hh' : ∀ ch ∈ cs', ∃ v w, .mk ch.key v ∈ l ∧ Same v w ∧ Holds w ch.item := fun ch hc => hh ch (hp.mem_iff.1 hc)
  obtain ⟨c, ps, ts, e1, e2, e3, e4, _⟩ := built_fold Child.key vf cs' built_empty (by
    intro ch hc
    obtain ⟨v, w, _, _, h3⟩ := hh' ch hc
    have := holds_kind (hvf ch w h3)
    exact ⟨this.2.2, this.1⟩) (by
      show ([] ++ cs'.map Child.key).Nodup
      rw [List.nil_append]; exact hkeys.nodup_iff.2 hd)
  obtain ⟨l', g1, g2⟩ := choose_values l cs' hh'
  refine ⟨c, l', ps, ts, e1, e2, by rw [e3, g1]; rfl, ?_, ?_⟩
  · refine built_holds e2 l' ?_
    intro k w hw
    obtain ⟨ch, hc, rfl, h1, _⟩ := g2 k w hw
    obtain ⟨w', h2, h3⟩ := e4 ch hc
    exact ⟨w', h2, h3 w (hvf ch w h1)⟩
  · unfold Same
    refine ⟨l', rfl, ?_, ?_⟩
    · rw [← List.length_map (f := PyPair.key), ← hkeys.length_eq, ← g1, List.length_map]
    · refine sameIn_of ?_
      intro k v hv
      have hk : k ∈ l'.map PyPair.key := by
        rw [g1]; exact hkeys.mem_iff.2 (List.mem_map.2 ⟨_, hv, rfl⟩)
      obtain ⟨⟨k', w⟩, hw, rfl⟩ := List.mem_map.1 hk
      obtain ⟨_, _, _, _, v', h1, h2⟩ := g2 _ w hw
      rw [PyPair.key_mk] at hv
      rw [pair_unique hd hv h1]
      exact ⟨w, hw, h2⟩

theorem buildTable_eq (isAot : Bool) (cs : List Child) (c : Cont) :
    foldE (fun t ch => Tbl.setItem t ch.key ch.item) (.mk c {} isAot none none none) cs =
    (foldE (fun c ch => c.setItemIndented [] (Child.key ch) ch.item) c cs).map fun c => .mk c {} isAot none none none := by
  induction cs generalizing c with
  | nil => rfl
  | cons x r ih =>
    unfold foldE
    have : Tbl.setItem (.mk c {} isAot none none none) x.key x.item =
        (c.setItemIndented [] x.key x.item).map fun c => .mk c {} isAot none none none := rfl
    rw [this]
    rcases c.setItemIndented [] x.key x.item with e | c'
    · rfl
    · exact ih c'

/-- the value given to an inline table -/
def inlineVal (ch : Child) : Item :=
  if ch.item.isWhitespace then ch.item else ch.item.setTrivia { ch.item.trivia with comment := [] }

theorem kept_inlineVal (ch : Child) : Kept ch.item (inlineVal ch) := by
  unfold inlineVal
  split
  · exact fun _ h => h
  · exact fun _ h => holds_setTrivia _ h

theorem buildInline_eq (cs : List Child) :
    buildInline cs = foldE (fun c ch => c.setItemIndented [] (Child.key ch) (inlineVal ch)) (Cont.empty false) cs := rfl

theorem aotAppend_end (own : Trivia) (p : Bool) (ts : List Tbl) (v : Tbl) : ∃ v', aotAppend own p ts v = ts ++ [v'] ∧
    (v' = v ∨ ∃ t, v' = v.setTrivia t) := by
  have hcl : clampIndex (ts.length : Int) ts.length = ts.length := by
    unfold clampIndex
    have h1 : ¬ ((ts.length : Int) < 0) := by omega
    simp only [h1, if_false]
    rw [if_pos (by omega)]
  have hset : ∀ (u : Tbl) (t t' : Trivia), (u.setTrivia t).setTrivia t' = u.setTrivia t' := by
    intro u t t'; rcases u with ⟨c, _, _, _, _, _⟩; rfl
  have hins : ∀ x : Tbl, ts.insertIdx ts.length x = ts ++ [x] := by
    intro x
    have := insertIdx_take ts [] x rfl
    rwa [List.append_nil] at this
  have hmain : ∀ v1 : Tbl, (v1 = v ∨ ∃ t, v1 = v.setTrivia t) → ∃ v', (if p then ts.insertIdx ts.length v1
      else
        (if ts.length + 1 < ts.length && ((ts[ts.length + 1]?).map Tbl.truthy).getD false
          then ts.modify (ts.length + 1) nlIndent else ts).insertIdx ts.length
            (match (if 0 < ts.length && 0 < ts.length then ts[ts.length - 1]? else none) with
              | some p => if p.truthy then nlIndent v1 else v1
              | none => v1)) = ts ++ [v'] ∧ (v' = v ∨ ∃ t, v' = v.setTrivia t) := by
    intro v1 hv1
    have hnl : nlIndent v1 = v ∨ ∃ t, nlIndent v1 = v.setTrivia t := by
      unfold nlIndent
      split
      · exact hv1
      · rcases hv1 with rfl | ⟨t, rfl⟩
        · exact Or.inr ⟨_, rfl⟩
        · exact Or.inr ⟨_, hset _ _ _⟩
    split
    · exact ⟨v1, hins v1, hv1⟩
    · have hno : (decide (ts.length + 1 < ts.length) && ((ts[ts.length + 1]?).map Tbl.truthy).getD false) = false := by simp
      rw [if_neg (by rw [hno]; simp)]
      refine ⟨_, hins _, ?_⟩
      split
      · split
        · exact hnl
        · exact hv1
      · exact hv1
  unfold aotAppend aotInsert
  rw [hcl]
  rcases hs : spaceRun own.indent with _ | ind
  · exact hmain v (Or.inl rfl)
  · exact hmain _ (Or.inr ⟨_, rfl⟩)

theorem aotFold_holds (own : Trivia) (p : Bool) : ∀ (ts acc : List Tbl) (l l0 : List PyVal), HoldsAll l (ts.map Item.table) →
    HoldsAll l0 (acc.map Item.table) → HoldsAll (l0 ++ l) ((ts.foldl (aotAppend own p) acc).map Item.table)
  | [], acc, l, l0, h, h0 => by
    rcases l with _ | ⟨v, l⟩
    · rw [List.append_nil]; exact h0
    · unfold HoldsAll at h; obtain ⟨_, _, h, _⟩ := h; cases h
  | t :: r, acc, l, l0, h, h0 => by
    rcases l with _ | ⟨v, l⟩
    · unfold HoldsAll at h; cases h
    · unfold HoldsAll at h
      obtain ⟨i, is', e, h1, h2⟩ := h
      rw [List.map_cons] at e
      cases e
      obtain ⟨t', ht', hk⟩ := aotAppend_end own p acc t
      rw [List.foldl_cons, ht', List.append_cons]
      refine aotFold_holds own p r _ l _ h2 ?_
      rw [List.map_append]
      have hv : Holds v (.table t') := by
        rcases hk with rfl | ⟨tr, rfl⟩
        · exact h1
        · exact holds_setTrivia tr h1
      clear ht' h2 h1 hk
      revert h0
      generalize acc.map Item.table = is
      induction l0 generalizing is with
      | nil =>
        intro h0
        unfold HoldsAll at h0; subst h0
        refine (show HoldsAll [v] [Item.table t'] from ?_)
        unfold HoldsAll
        exact ⟨_, _, rfl, hv, by unfold HoldsAll; rfl⟩
      | cons x l0 ih =>
        intro h0
        unfold HoldsAll at h0
        obtain ⟨i, is', rfl, g1, g2⟩ := h0
        rw [List.cons_append, List.cons_append]
        unfold HoldsAll
        exact ⟨_, _, rfl, g1, ih _ g2⟩

theorem buildArray_holds {l : List PyVal} {is : List Item} (h : HoldsAll l is) : ∃ i, buildArray is = .ok i ∧ Holds (.list l) i := by
  obtain ⟨b, h1, h2, h3⟩ := extend_inv (mkArray_inv []) is (by
    rw [List.all_eq_true]
    intro i hi
    obtain ⟨v, hv⟩ := holdsAll_mem h i hi
    obtain ⟨g1, g2, g3⟩ := holds_kind hv
    simp [Item.isData, g1, g2, g3])
  unfold buildArray
  rw [h1]
  refine ⟨_, rfl, ?_⟩
  unfold Holds
  refine Or.inl ⟨_, _, _, rfl, ?_⟩
  rw [h2.elems, h3]
  exact h

theorem noNone_list {l : List PyVal} (h : NoNone (.list l)) : ThroughoutAll (fun v => v ≠ .none) l := by
  unfold NoNone at h; rw [Throughout.eq_def] at h; exact h.2
theorem noNone_dict {l : List PyPair} (h : NoNone (.dict l)) : ThroughoutIn (fun v => v ≠ .none) l := by
  unfold NoNone at h; rw [Throughout.eq_def] at h; exact h.2

mutual
/-- a converted value holds the value -/
theorem item_holds : ∀ (v : PyVal), KeysOnce v → NoNone v → ∀ (s : Bool) (p : Parent), ∃ i w, v.toItem s p = .ok i ∧ Holds w i ∧ Same v w
  | .bool b, _, _, s, p => ⟨_, .bool b, by unfold PyVal.toItem; rfl, by unfold Holds; exact ⟨_, rfl⟩, by unfold Same; rfl⟩
  | .int n, _, _, s, p => ⟨_, .int n, by unfold PyVal.toItem; rfl, by unfold Holds intItem; exact ⟨_, _, rfl⟩, by unfold Same; rfl⟩
  | .str n, _, _, s, p => ⟨_, .str n, by unfold PyVal.toItem; rfl, by unfold Holds stringItem; exact ⟨_, _, _, rfl⟩, by unfold Same; rfl⟩
  | .date n, _, _, s, p => ⟨_, .date n, by unfold PyVal.toItem; rfl, by unfold Holds dateItem; exact ⟨_, _, rfl⟩, by unfold Same; rfl⟩
  | .time n, _, _, s, p => ⟨_, .time n, by unfold PyVal.toItem; rfl, by unfold Holds timeItem; exact ⟨_, _, rfl⟩, by unfold Same; rfl⟩
  | .datetime n, _, _, s, p => ⟨_, .datetime n, by unfold PyVal.toItem; rfl, by unfold Holds datetimeItem; exact ⟨_, _, rfl⟩, by unfold Same; rfl⟩
  | .float n, _, _, s, p => ⟨_, .float n, by unfold PyVal.toItem; rfl, by unfold Holds; exact ⟨_, _, rfl⟩, by unfold Same; rfl⟩
  | .none, _, hn, s, p => absurd rfl (throughout_here hn)
  | .list l, hk, hn, s, p => by
    unfold KeysOnce at hk
    have hn' := noNone_list hn
    unfold PyVal.toItem
    split
    · rename_i hc
      simp only [Bool.and_eq_true] at hc
      obtain ⟨ts, l', h1, h2, h3⟩ := tables_hold l hk hn' hc.1.2 s
      rw [h1]
      refine ⟨_, .list l', rfl, ?_, by unfold Same; exact ⟨_, rfl, h3⟩⟩
      unfold Holds
      exact Or.inr ⟨_, _, _, _, rfl, aotFold_holds _ _ ts [] l' [] h2 (by unfold HoldsAll; rfl)⟩
    · obtain ⟨is, l', h1, h2, h3⟩ := elems_hold l hk hn' s
      rw [h1]
      obtain ⟨i, h4, h5⟩ := buildArray_holds h2
      exact ⟨i, _, h4, h5, by unfold Same; exact ⟨_, rfl, h3⟩⟩
  | .dict l, hk, hn, s, p => by
    unfold KeysOnce at hk
    have hn' := noNone_dict hn
    have hmain : ∀ q, ∃ cs, l.toChildren s q = .ok cs ∧ ∀ vf : Child → Item, (∀ ch, Kept ch.item (vf ch)) →
        ∃ c l' ps ts, foldE (fun c ch => c.setItemIndented [] (Child.key ch) (vf ch)) (Cont.empty false) (dictOrder s cs) = .ok c ∧
          Built c ps ts ∧ c.dict = l'.map PyPair.key ∧ HoldsIn l' c ∧ Same (.dict l) (.dict l') := by
      intro q
      obtain ⟨cs, h1, h2, h3⟩ := children_hold l hk.2 hn' s q
      exact ⟨cs, h1, fun vf hvf => dict_holds hk.1 h2 (dictOrder_perm s cs) h3 hvf⟩
    have htab : ∃ i w, (match l.toChildren s .table with
        | .error e => .error e
        | .ok cs => (buildTable false (dictOrder s cs)).map Item.table) = Except.ok i ∧ Holds w i ∧ Same (.dict l) w := by
      obtain ⟨cs, h1, h2⟩ := hmain .table
      obtain ⟨c, l', ps, ts, e1, e2, e3, e4, e5⟩ := h2 Child.item fun _ _ h => h
      rw [h1]
      dsimp only
      unfold buildTable
      rw [buildTable_eq, e1]
      refine ⟨_, .dict l', rfl, ?_, e5⟩
      unfold Holds
      exact ⟨c, rfl, e3, e4⟩
    have hinl : ∃ i w, (match l.toChildren s .inline with
        | .error e => .error e
        | .ok cs => (buildInline (dictOrder s cs)).map fun c => Item.inline c {} false) = Except.ok i ∧ Holds w i ∧ Same (.dict l) w := by
      obtain ⟨cs, h1, h2⟩ := hmain .inline
      obtain ⟨c, l', ps, ts, e1, e2, e3, e4, e5⟩ := h2 inlineVal kept_inlineVal
      rw [h1]
      dsimp only
      rw [buildInline_eq, e1]
      refine ⟨_, .dict l', rfl, ?_, e5⟩
      unfold Holds
      exact ⟨c, rfl, e3, e4⟩
    rcases p with _ | _ | _ | _ <;> unfold PyVal.toItem
    · exact htab
    · exact htab
    · exact hinl
    · exact hinl
termination_by v => sizeOf v
theorem children_hold : ∀ (l : List PyPair), KeysOnceIn l → ThroughoutIn (fun v => v ≠ .none) l → ∀ (s : Bool) (p : Parent),
    ∃ cs, l.toChildren s p = .ok cs ∧ cs.map Child.key = l.map PyPair.key ∧
      ∀ ch ∈ cs, ∃ v w, .mk ch.key v ∈ l ∧ Same v w ∧ Holds w ch.item
  | [], _, _, s, p => ⟨[], rfl, rfl, fun ch h => by cases h⟩
  | .mk k v :: r, hk, hn, s, p => by
    unfold KeysOnceIn at hk
    unfold ThroughoutIn at hn
    obtain ⟨i, w, h1, h2, h3⟩ := item_holds v hk.1 hn.1 s p
    obtain ⟨cs, g1, g2, g3⟩ := children_hold r hk.2 hn.2 s p
    unfold List.toChildren PyPair.toChild
    rw [h1, g1]
    refine ⟨⟨k, v.isDict, i⟩ :: cs, rfl, by simp [g2], ?_⟩
    intro ch hc
    rcases List.mem_cons.1 hc with rfl | hc
    · exact ⟨v, w, List.mem_cons_self .., h3, h2⟩
    · obtain ⟨v', w', e1, e2⟩ := g3 ch hc
      exact ⟨v', w', List.mem_cons_of_mem _ e1, e2⟩
termination_by l => sizeOf l
theorem tables_hold : ∀ (l : List PyVal), KeysOnceAll l → ThroughoutAll (fun v => v ≠ .none) l → l.all PyVal.isDict = true → ∀ (s : Bool),
    ∃ ts l', l.toTables s = .ok ts ∧ HoldsAll l' (ts.map Item.table) ∧ SameAll l l'
  | [], _, _, _, s => ⟨[], [], rfl, by unfold HoldsAll; rfl, by unfold SameAll; rfl⟩
  | .dict l :: r, hk, hn, hd, s => by
    unfold KeysOnceAll KeysOnce at hk
    unfold ThroughoutAll at hn
    have hn' := noNone_dict (l := l) hn.1
    rw [List.all_cons] at hd
    obtain ⟨cs, h1, h2, h3⟩ := children_hold l hk.1.2 hn' s .table
    obtain ⟨c, l', ps, ts, e1, e2, e3, e4, e5⟩ := dict_holds hk.1.1 h2 (elemOrder_perm s cs) h3 (vf := Child.item) fun _ _ h => h
    obtain ⟨tr, lr, g1, g2, g3⟩ := tables_hold r hk.2 hn.2 (by simpa [PyVal.isDict] using hd) s
    unfold List.toTables PyVal.toTable
    rw [h1]
    dsimp only
    unfold buildTable
    rw [buildTable_eq, e1, g1]
    refine ⟨_, .dict l' :: lr, rfl, ?_, by unfold SameAll; exact ⟨_, _, rfl, e5, g3⟩⟩
    rw [List.map_cons]
    unfold HoldsAll
    refine ⟨_, _, rfl, ?_, g2⟩
    unfold Holds
    exact ⟨c, rfl, e3, e4⟩
  | .bool _ :: r, _, _, hd, s | .int _ :: r, _, _, hd, s | .str _ :: r, _, _, hd, s | .date _ :: r, _, _, hd, s
  | .time _ :: r, _, _, hd, s | .datetime _ :: r, _, _, hd, s | .float _ :: r, _, _, hd, s | .none :: r, _, _, hd, s
  | .list _ :: r, _, _, hd, s => by
    rw [List.all_cons] at hd; simp [PyVal.isDict] at hd
termination_by l => sizeOf l
theorem elems_hold : ∀ (l : List PyVal), KeysOnceAll l → ThroughoutAll (fun v => v ≠ .none) l → ∀ (s : Bool),
    ∃ is l', l.toElems s = .ok is ∧ HoldsAll l' is ∧ SameAll l l'
  | [], _, _, s => ⟨[], [], rfl, by unfold HoldsAll; rfl, by unfold SameAll; rfl⟩
  | v :: r, hk, hn, s => by
    unfold KeysOnceAll at hk
    unfold ThroughoutAll at hn
    obtain ⟨i, w, h1, h2, h3⟩ := elem_holds v hk.1 hn.1 s
    obtain ⟨is, lr, g1, g2, g3⟩ := elems_hold r hk.2 hn.2 s
    unfold List.toElems
    rw [h1, g1]
    exact ⟨_, w :: lr, rfl, by unfold HoldsAll; exact ⟨_, _, rfl, h2, g2⟩, by unfold SameAll; exact ⟨_, _, rfl, h3, g3⟩⟩
termination_by l => sizeOf l
theorem elem_holds : ∀ (v : PyVal), KeysOnce v → NoNone v → ∀ (s : Bool), ∃ i w, v.toElem s = .ok i ∧ Holds w i ∧ Same v w
  | .bool b, _, _, s => ⟨_, .bool b, by unfold PyVal.toElem; rfl, by unfold Holds; exact ⟨_, rfl⟩, by unfold Same; rfl⟩
  | .int n, _, _, s => ⟨_, .int n, by unfold PyVal.toElem; rfl, by unfold Holds intItem; exact ⟨_, _, rfl⟩, by unfold Same; rfl⟩
  | .str n, _, _, s => ⟨_, .str n, by unfold PyVal.toElem; rfl, by unfold Holds stringItem; exact ⟨_, _, _, rfl⟩, by unfold Same; rfl⟩
  | .date n, _, _, s => ⟨_, .date n, by unfold PyVal.toElem; rfl, by unfold Holds dateItem; exact ⟨_, _, rfl⟩, by unfold Same; rfl⟩
  | .time n, _, _, s => ⟨_, .time n, by unfold PyVal.toElem; rfl, by unfold Holds timeItem; exact ⟨_, _, rfl⟩, by unfold Same; rfl⟩
  | .datetime n, _, _, s => ⟨_, .datetime n, by unfold PyVal.toElem; rfl, by unfold Holds datetimeItem; exact ⟨_, _, rfl⟩, by unfold Same; rfl⟩
  | .float n, _, _, s => ⟨_, .float n, by unfold PyVal.toElem; rfl, by unfold Holds; exact ⟨_, _, rfl⟩, by unfold Same; rfl⟩
  | .none, _, hn, s => absurd rfl (throughout_here hn)
  | .list l, hk, hn, s => by
    unfold KeysOnce at hk
    obtain ⟨is, l', h1, h2, h3⟩ := elems_hold l hk (noNone_list hn) false
    unfold PyVal.toElem
    rw [h1]
    obtain ⟨i, h4, h5⟩ := buildArray_holds h2
    exact ⟨i, _, h4, h5, by unfold Same; exact ⟨_, rfl, h3⟩⟩
  | .dict l, hk, hn, s => by
    unfold KeysOnce at hk
    obtain ⟨cs, h1, h2, h3⟩ := children_hold l hk.2 (noNone_dict hn) s .inline
    obtain ⟨c, l', ps, ts, e1, e2, e3, e4, e5⟩ := dict_holds (cs := cs.map Child.noTrail) hk.1 (by rw [List.map_map]; exact h2)
      (elemOrder_perm s (cs.map Child.noTrail)) (by
        intro ch hc
        obtain ⟨ch0, h0, rfl⟩ := List.mem_map.1 hc
        obtain ⟨v, w, g1, g2, g3⟩ := h3 ch0 h0
        exact ⟨v, w, g1, g2, holds_setTrivia _ g3⟩) kept_inlineVal
    unfold PyVal.toElem
    rw [h1]
    dsimp only
    rw [buildInline_eq, e1]
    refine ⟨_, .dict l', rfl, ?_, e5⟩
    unfold Holds
    exact ⟨c, rfl, e3, e4⟩
termination_by v => sizeOf v
end

end Tomlkit
