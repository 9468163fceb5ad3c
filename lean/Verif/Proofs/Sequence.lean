import Verif.Spec.Sequence
import Verif.Proofs.Arrays
/-!
# The `MutableSequence` loops over any class whose five methods act as on a list (C46)
-/
namespace Tomlkit

/-- The methods `__len__`, `__getitem__`, `__delitem__` and `insert` act as on the list `view s`. -/
structure SeqImpl.Acts {σ α β : Type} (I : SeqImpl σ α) (Inv : σ → Prop) (view : σ → List β) (seen : α → β)
    (ok : α → Prop) : Prop where
  len : ∀ s, Inv s → I.len s = (view s).length
  get : ∀ s k, Inv s → match pyIndex k (view s).length with
    | none => I.get s k = .error .indexError
    | some i => ∃ v, I.get s k = .ok v ∧ (view s)[i]? = some (seen v) ∧ ok v
  del : ∀ s k, Inv s → match pyDel (view s) k with
    | none => I.del s k = .error .indexError
    | some l => ∃ t, I.del s k = .ok t ∧ Inv t ∧ view t = l
  insert : ∀ s k x, Inv s → ok x → ∃ t, I.insert s k x = .ok t ∧ Inv t ∧ view t = pyInsert (view s) k (seen x)

/-- `__setitem__` acts as on the list -/
def SeqImpl.Sets {σ α β : Type} (I : SeqImpl σ α) (Inv : σ → Prop) (view : σ → List β) (seen : α → β)
    (ok : α → Prop) : Prop :=
  ∀ s k x, Inv s → ok x → match pySet (view s) k (seen x) with
    | none => I.set s k x = .error .indexError
    | some l => ∃ t, I.set s k x = .ok t ∧ Inv t ∧ view t = l

theorem pyIndex_nat {i n : Nat} (h : i < n) : pyIndex (i : Int) n = some i := by
  unfold pyIndex
  have h1 : ¬ (i : Int) < 0 := by omega
  simp only [h1, if_false]
  rw [if_pos (by simp; omega)]
  simp

theorem pyIndex_big {i n : Nat} (h : n ≤ i) : pyIndex (i : Int) n = none := by
  unfold pyIndex
  have h1 : ¬ (i : Int) < 0 := by omega
  simp only [h1, if_false]
  rw [if_neg (by simp; omega)]

namespace SeqImpl
variable {σ α β : Type} {I : SeqImpl σ α} {Inv : σ → Prop} {view : σ → List β} {seen : α → β} {ok : α → Prop}

theorem Acts.get_lt (A : I.Acts Inv view seen ok) {s : σ} (h : Inv s) {i : Nat} (hi : i < (view s).length) :
    ∃ v, I.get s i = .ok v ∧ (view s)[i]? = some (seen v) ∧ ok v := by
  have := A.get s i h
  rw [pyIndex_nat hi] at this
  exact this

theorem Acts.get_ge (A : I.Acts Inv view seen ok) {s : σ} (h : Inv s) {i : Nat} (hi : (view s).length ≤ i) :
    I.get s i = .error .indexError := by
  have := A.get s i h
  rw [pyIndex_big hi] at this
  exact this

theorem Acts.append (A : I.Acts Inv view seen ok) {s : σ} (h : Inv s) {x : α} (hx : ok x) :
    ∃ t, I.append s x = .ok t ∧ Inv t ∧ view t = view s ++ [seen x] := by
  obtain ⟨t, h1, h2, h3⟩ := A.insert s (I.len s) x h hx
  refine ⟨t, h1, h2, ?_⟩
  rw [h3, A.len s h, pyInsert_end]

theorem Acts.extend (A : I.Acts Inv view seen ok) {xs : List α} : ∀ {s : σ}, Inv s → (∀ x ∈ xs, ok x) →
    ∃ t, I.extend xs s = .ok t ∧ Inv t ∧ view t = view s ++ xs.map seen := by
  induction xs with
  | nil => intro s h _; exact ⟨s, rfl, h, by simp⟩
  | cons x r ih =>
    intro s h hx
    obtain ⟨t, h1, h2, h3⟩ := A.append h (hx x (by simp))
    obtain ⟨u, g1, g2, g3⟩ := ih h2 fun y hy => hx y (by simp [hy])
    refine ⟨u, ?_, g2, ?_⟩
    · unfold SeqImpl.extend; rw [h1]; exact g1
    · rw [g3, h3]; simp

theorem Acts.pop (A : I.Acts Inv view seen ok) {s : σ} (h : Inv s) (k : Int) :
    match pyIndex k (view s).length with
    | none => I.pop s k = .error .indexError
    | some i => ∃ t v, I.pop s k = .ok (t, v) ∧ Inv t ∧ view t = (view s).eraseIdx i ∧ (view s)[i]? = some (seen v) ∧ ok v := by
  have h1 := A.get s k h
  have h2 := A.del s k h
  unfold pyDel at h2
  unfold SeqImpl.pop
  cases hk : pyIndex k (view s).length with
  | none => rw [hk] at h1; simp only at h1 ⊢; rw [h1]
  | some i =>
    rw [hk] at h1 h2
    simp only [Option.map_some] at h1 h2 ⊢
    obtain ⟨v, e1, e2, e3⟩ := h1
    obtain ⟨t, g1, g2, g3⟩ := h2
    exact ⟨t, v, by rw [e1]; simp only; rw [g1], g2, g3, e2, e3⟩

theorem Acts.iterLoop (A : I.Acts Inv view seen ok) {s : σ} (h : Inv s) : ∀ (n i : Nat), (view s).length - i < n →
    ∃ vs, I.iterLoop s n i = .ok vs ∧ vs.map seen = (view s).drop i := by
  intro n
  induction n with
  | zero => intro i hi; omega
  | succ n ih =>
    intro i hi
    by_cases hl : i < (view s).length
    · obtain ⟨v, h1, h2, _⟩ := A.get_lt h hl
      obtain ⟨vs, g1, g2⟩ := ih (i + 1) (by omega)
      refine ⟨v :: vs, ?_, ?_⟩
      · unfold SeqImpl.iterLoop
        rw [h1]
        simp only
        rw [show (i : Int) + 1 = ((i + 1 : Nat) : Int) by omega, g1]
        rfl
      · rw [List.map_cons, g2]
        rw [List.getElem?_eq_getElem hl] at h2
        rw [← Option.some.inj h2, List.drop_eq_getElem_cons hl]
    · refine ⟨[], ?_, ?_⟩
      · unfold SeqImpl.iterLoop
        rw [A.get_ge h (by omega)]
      · rw [List.drop_eq_nil_of_le (by omega)]; rfl

theorem Acts.iter (A : I.Acts Inv view seen ok) {s : σ} (h : Inv s) :
    ∃ vs, I.iter s = .ok vs ∧ vs.map seen = view s := by
  obtain ⟨vs, h1, h2⟩ := A.iterLoop h (I.len s + 1) 0 (by rw [A.len s h]; omega)
  exact ⟨vs, h1, by rw [h2]; rfl⟩

theorem Acts.contains (A : I.Acts Inv view seen ok) {s : σ} (h : Inv s) (eq : β → Bool) :
    I.contains s (fun v => eq (seen v)) = .ok ((view s).any eq) := by
  obtain ⟨vs, h1, h2⟩ := A.iter h
  unfold SeqImpl.contains
  rw [h1, ← h2, List.any_map]
  rfl

theorem Acts.count (A : I.Acts Inv view seen ok) {s : σ} (h : Inv s) (eq : β → Bool) :
    I.count s (fun v => eq (seen v)) = .ok ((view s).countP eq) := by
  obtain ⟨vs, h1, h2⟩ := A.iter h
  unfold SeqImpl.count
  rw [h1, ← h2, List.countP_map]
  rfl

theorem Acts.reversedLoop (A : I.Acts Inv view seen ok) {s : σ} (h : Inv s) : ∀ n, n ≤ (view s).length →
    ∃ vs, I.reversedLoop s n = .ok vs ∧ vs.map seen = ((view s).take n).reverse := by
  intro n
  induction n with
  | zero => intro _; exact ⟨[], rfl, rfl⟩
  | succ n ih =>
    intro hn
    obtain ⟨v, h1, h2, _⟩ := A.get_lt h (show n < (view s).length by omega)
    obtain ⟨vs, g1, g2⟩ := ih (by omega)
    refine ⟨v :: vs, ?_, ?_⟩
    · unfold SeqImpl.reversedLoop; rw [h1]; simp only; rw [g1]; rfl
    · rw [List.map_cons, g2, List.take_succ, h2]
      simp

theorem Acts.reversed (A : I.Acts Inv view seen ok) {s : σ} (h : Inv s) :
    ∃ vs, I.reversed s = .ok vs ∧ vs.map seen = (view s).reverse := by
  obtain ⟨vs, h1, h2⟩ := A.reversedLoop h (I.len s) (by rw [A.len s h]; omega)
  exact ⟨vs, h1, by rw [h2, A.len s h, List.take_length]⟩

/-! ### index and remove -/

theorem Acts.indexLoop (A : I.Acts Inv view seen ok) {s : σ} (h : Inv s) (eq : β → Bool) (stop : Option Int) :
    ∀ (n i : Nat), (view s).length - i < n →
      (∃ j, i ≤ j ∧ j < (view s).length ∧ (stop.all fun (e : Int) => decide ((j : Int) < e)) = true ∧ ((view s)[j]?).any eq = true ∧
        (∀ k, i ≤ k → k < j → ((view s)[k]?).any eq = false) ∧
        I.indexLoop s (fun v => eq (seen v)) stop n i = .ok j) ∨
      ((∀ k, i ≤ k → k < (view s).length → (stop.all fun (e : Int) => decide ((k : Int) < e)) = true → ((view s)[k]?).any eq = false) ∧
        I.indexLoop s (fun v => eq (seen v)) stop n i = .error .valueError) := by
  intro n
  induction n with
  | zero => intro i hi; omega
  | succ n ih =>
    intro i hi
    unfold SeqImpl.indexLoop
    by_cases hs : (stop.all fun (e : Int) => decide ((i : Int) < e)) = true
    · rw [if_pos hs]
      by_cases hl : i < (view s).length
      · obtain ⟨v, h1, h2, _⟩ := A.get_lt h hl
        rw [h1]
        simp only
        by_cases hv : eq (seen v) = true
        · rw [if_pos hv]
          exact .inl ⟨i, Nat.le_refl _, hl, hs, by rw [h2]; exact hv, fun k h1 h2 => absurd h1 (by omega), rfl⟩
        · rw [if_neg hv]
          rw [show (i : Int) + 1 = ((i + 1 : Nat) : Int) by omega]
          have hi' : ((view s)[i]?).any eq = false := by rw [h2]; simpa using hv
          rcases ih (i + 1) (by omega) with ⟨j, a1, a2, a3, a4, a5, a6⟩ | ⟨a1, a2⟩
          · refine .inl ⟨j, by omega, a2, a3, a4, ?_, a6⟩
            intro k hk1 hk2
            rcases Nat.eq_or_lt_of_le hk1 with rfl | hk
            · exact hi'
            · exact a5 k hk hk2
          · refine .inr ⟨?_, a2⟩
            intro k hk1 hk2 hk3
            rcases Nat.eq_or_lt_of_le hk1 with rfl | hk
            · exact hi'
            · exact a1 k hk hk2 hk3
      · rw [A.get_ge h (by omega)]
        exact .inr ⟨fun k h1 h2 => absurd h1 (by omega), rfl⟩
    · rw [if_neg hs]
      refine .inr ⟨?_, rfl⟩
      intro k hk1 _ hk3
      cases stop with
      | none => exact absurd rfl hs
      | some e =>
        simp only [Option.all_some, decide_eq_true_eq] at hs hk3
        omega

/-- `index` finds what `list.index` finds -/
theorem Acts.index (A : I.Acts Inv view seen ok) {s : σ} (h : Inv s) (eq : β → Bool) (start : Int)
    (stop : Option Int) :
    I.index s (fun v => eq (seen v)) start stop =
      match Spec.listIndex (view s) eq start stop with
      | some i => .ok (i : Int)
      | none => .error .valueError := by
  unfold SeqImpl.index
  simp only
  obtain ⟨lo, hlo⟩ : ∃ lo : Nat, (if start < 0 then max ((I.len s : Int) + start) 0 else start) = (lo : Int) :=
    ⟨(if start < 0 then max ((I.len s : Int) + start) 0 else start).toNat, by split <;> omega⟩
  rw [hlo]
  have hle : ∀ i : Nat, ((if start < 0 then start + ((view s).length : Int) else start) ≤ (i : Int)) ↔ lo ≤ i := by
    intro i
    rw [A.len s h] at hlo
    split at hlo
    · rw [if_pos (by assumption)]; omega
    · rw [if_neg (by assumption)]; omega
  have hst : ∀ i : Nat, i < (view s).length →
      (((stop.map fun (e : Int) => if e < 0 then e + (I.len s : Int) else e).all fun (e : Int) => decide ((i : Int) < e)) = true ↔
      (i : Int) < Spec.listStop (view s).length stop) := by
    intro i hi
    rw [A.len s h]
    cases stop with
    | none => simp [Spec.listStop]; omega
    | some e => simp [Spec.listStop]
  unfold Spec.listIndex
  simp only
  rcases A.indexLoop h eq (stop.map fun (e : Int) => if e < 0 then e + (I.len s : Int) else e) (I.len s + 1) lo
    (by rw [A.len s h]; omega) with ⟨j, a1, a2, a3, a4, a5, a6⟩ | ⟨a1, a2⟩
  · rw [a6]
    have : (List.range (view s).length).find? (fun (i : Nat) =>
        decide ((if start < 0 then start + ((view s).length : Int) else start) ≤ (i : Int)) &&
        decide ((i : Int) < Spec.listStop (view s).length stop) &&
        ((view s)[i]?).any eq) = some j := by
      rw [List.find?_range_eq_some]
      refine ⟨?_, by simpa using a2, ?_⟩
      · simp only [Bool.and_eq_true, decide_eq_true_eq]
        exact ⟨⟨(hle j).2 a1, (hst j a2).1 a3⟩, a4⟩
      · intro k hk
        by_cases hk' : lo ≤ k
        · simp [a5 k hk' hk]
        · have := decide_eq_false (fun hc => hk' ((hle k).1 hc))
          rw [this]
          rfl
    rw [this]
  · rw [a2]
    have : (List.range (view s).length).find? (fun (i : Nat) =>
        decide ((if start < 0 then start + ((view s).length : Int) else start) ≤ (i : Int)) &&
        decide ((i : Int) < Spec.listStop (view s).length stop) &&
        ((view s)[i]?).any eq) = none := by
      rw [List.find?_eq_none]
      intro k hk hc
      simp only [Bool.and_eq_true, decide_eq_true_eq] at hc
      have hk := List.mem_range.1 hk
      have := a1 k ((hle k).1 hc.1.1) hk ((hst k hk).2 hc.1.2)
      rw [this] at hc
      exact absurd hc.2 (by decide)
    rw [this]

theorem Acts.remove (A : I.Acts Inv view seen ok) {s : σ} (h : Inv s) (eq : β → Bool) :
    if (view s).any eq then ∃ t, I.remove s (fun v => eq (seen v)) = .ok t ∧ Inv t ∧ view t = (view s).eraseP eq
    else I.remove s (fun v => eq (seen v)) = .error .valueError := by
  have hx : I.index s (fun v => eq (seen v)) 0 none = I.indexLoop s (fun v => eq (seen v)) none (I.len s + 1) (0 : Nat) := by
    unfold SeqImpl.index; simp
  unfold SeqImpl.remove
  rw [hx]
  rcases A.indexLoop h eq none (I.len s + 1) 0 (by rw [A.len s h]; omega) with ⟨j, _, a2, _, a4, a5, a6⟩ | ⟨a1, a2⟩
  · rw [a6]
    simp only
    have hj : (view s).any eq = true := by
      rw [List.getElem?_eq_getElem a2] at a4
      exact List.any_eq_true.2 ⟨_, List.getElem_mem a2, a4⟩
    rw [if_pos hj]
    have hd := A.del s j h
    unfold pyDel at hd
    rw [pyIndex_nat a2] at hd
    simp only [Option.map_some] at hd
    obtain ⟨t, g1, g2, g3⟩ := hd
    refine ⟨t, g1, g2, ?_⟩
    rw [g3]
    have hf : (view s).findIdx? eq = some j := by
      rw [List.findIdx?_eq_some_iff_getElem]
      refine ⟨a2, ?_, ?_⟩
      · rw [List.getElem?_eq_getElem a2] at a4; exact a4
      · intro k hk
        have := a5 k (Nat.zero_le _) hk
        rw [List.getElem?_eq_getElem (by omega)] at this
        simpa using this
    rw [List.eraseP_eq_eraseIdx, hf]
  · rw [a2]
    have hj : ¬ (view s).any eq = true := by
      intro hc
      obtain ⟨x, hx, he⟩ := List.any_eq_true.1 hc
      obtain ⟨k, hk, rfl⟩ := List.getElem_of_mem hx
      have := a1 k (Nat.zero_le _) hk rfl
      rw [List.getElem?_eq_getElem hk] at this
      simp [he] at this
    rw [if_neg hj]

/-! ### clear -/

theorem Acts.clearLoop (A : I.Acts Inv view seen ok) : ∀ (n : Nat) {s : σ}, Inv s → (view s).length < n →
    ∃ t, I.clearLoop n s = .ok t ∧ Inv t ∧ view t = [] := by
  intro n
  induction n with
  | zero => intro s _ hl; omega
  | succ n ih =>
    intro s h hl
    unfold SeqImpl.clearLoop
    have hp := A.pop h (-1)
    cases hk : pyIndex (-1) (view s).length with
    | none =>
      rw [hk] at hp
      simp only at hp
      rw [hp]
      refine ⟨s, rfl, h, ?_⟩
      unfold pyIndex at hk
      simp at hk
      exact List.eq_nil_of_length_eq_zero (by omega)
    | some i =>
      rw [hk] at hp
      obtain ⟨t, v, h1, h2, h3, _⟩ := hp
      rw [h1]
      simp only
      have hi := (pyIndex_some hk).1
      refine ih h2 ?_
      rw [h3, List.length_eraseIdx_of_lt hi]
      omega

theorem Acts.clear (A : I.Acts Inv view seen ok) {s : σ} (h : Inv s) :
    ∃ t, I.clear s = .ok t ∧ Inv t ∧ view t = [] :=
  A.clearLoop _ h (by rw [A.len s h]; omega)

/-! ### reverse -/

theorem Acts.swap (A : I.Acts Inv view seen ok) (S : I.Sets Inv view seen ok) {s : σ} (h : Inv s) {i : Nat}
    (hi : 2 * i + 1 < (view s).length) :
    ∃ t, I.swap s (view s).length i = .ok t ∧ Inv t ∧ (view t).length = (view s).length ∧
      ∀ p, (view t)[p]? = if p = i ∨ p = (view s).length - 1 - i then (view s)[(view s).length - 1 - p]? else (view s)[p]? := by
  have hj : ((view s).length : Int) - i - 1 = (((view s).length - 1 - i : Nat) : Int) := by omega
  generalize hn : (view s).length = n at *
  obtain ⟨x, x1, x2, x3⟩ := A.get_lt h (show n - 1 - i < (view s).length by omega)
  obtain ⟨y, y1, y2, y3⟩ := A.get_lt h (show i < (view s).length by omega)
  have hs := S s i x h x3
  unfold pySet at hs
  rw [pyIndex_nat (show i < (view s).length by omega)] at hs
  simp only [Option.map_some] at hs
  obtain ⟨t, t1, t2, t3⟩ := hs
  have hs' := S t ((n - 1 - i : Nat) : Int) y t2 y3
  have hl : (view t).length = n := by rw [t3, List.length_set, hn]
  unfold pySet at hs'
  rw [pyIndex_nat (show n - 1 - i < (view t).length by omega)] at hs'
  simp only [Option.map_some] at hs'
  obtain ⟨u, u1, u2, u3⟩ := hs'
  refine ⟨u, ?_, u2, ?_, ?_⟩
  · unfold SeqImpl.swap
    rw [hj, x1]
    simp only
    rw [y1]
    simp only
    rw [t1]
    exact u1
  · rw [u3, List.length_set, hl]
  · intro p
    rw [u3, t3, List.getElem?_set, List.length_set]
    by_cases hp : n - 1 - i = p
    · rw [if_pos hp, if_pos (by omega), if_pos (by omega), ← y2]
      congr 1; omega
    · rw [if_neg hp, List.getElem?_set]
      by_cases hq : i = p
      · rw [if_pos hq, if_pos (by omega), if_pos (by omega), ← x2]
        congr 1; omega
      · rw [if_neg hq, if_neg (by omega)]

theorem Acts.reverseLoop (A : I.Acts Inv view seen ok) (S : I.Sets Inv view seen ok) (n : Nat) :
    ∀ (r i : Nat) {s : σ}, Inv s → (view s).length = n → 2 * (i + r) ≤ n →
    ∃ t, I.reverseLoop n r i s = .ok t ∧ Inv t ∧ (view t).length = n ∧
      ∀ p, p < n → (view t)[p]? = if (i ≤ p ∧ p < i + r) ∨ (n ≤ p + i + r ∧ p + i < n) then (view s)[n - 1 - p]?
        else (view s)[p]? := by
  intro r
  induction r with
  | zero =>
    intro i s h hl _
    refine ⟨s, rfl, h, hl, ?_⟩
    intro p hp
    rw [if_neg (by omega)]
  | succ r ih =>
    intro i s h hl hr
    obtain ⟨t, t1, t2, t3, t4⟩ := A.swap S h (show 2 * i + 1 < (view s).length by omega)
    obtain ⟨u, u1, u2, u3, u4⟩ := ih (i + 1) t2 (by omega) (by omega)
    refine ⟨u, ?_, u2, u3, ?_⟩
    · unfold SeqImpl.reverseLoop
      rw [← hl, t1]
      simp only
      rw [hl]; exact u1
    · intro p hp
      rw [u4 p hp]
      by_cases hc : (i + 1 ≤ p ∧ p < i + 1 + r) ∨ (n ≤ p + (i + 1) + r ∧ p + (i + 1) < n)
      · rw [if_pos hc, if_pos (by omega), t4, if_neg (by omega)]
      · rw [if_neg hc, t4, hl]
        by_cases hd : p = i ∨ p = n - 1 - i
        · rw [if_pos hd, if_pos (by omega)]
        · rw [if_neg hd, if_neg (by omega)]

theorem Acts.reverse (A : I.Acts Inv view seen ok) (S : I.Sets Inv view seen ok) {s : σ} (h : Inv s) :
    ∃ t, I.reverse s = .ok t ∧ Inv t ∧ view t = (view s).reverse := by
  obtain ⟨t, h1, h2, h3, h4⟩ := A.reverseLoop S (view s).length ((view s).length / 2) 0 h rfl (by omega)
  refine ⟨t, ?_, h2, ?_⟩
  · unfold SeqImpl.reverse; rw [A.len s h]; exact h1
  · apply List.ext_getElem?
    intro p
    by_cases hp : p < (view s).length
    · rw [h4 p hp, List.getElem?_reverse hp]
      split
      · rfl
      · congr 1; omega
    · rw [List.getElem?_eq_none (by omega), List.getElem?_eq_none (by rw [List.length_reverse]; omega)]

/-! ### one operation -/

/-- A method changes what the caller sees as it changes a list, or raises what a list raises. -/
theorem Acts.run (A : I.Acts Inv view seen ok) {s : σ} (h : Inv s) (o : Spec.SeqOp α β)
    (hx : ∀ x ∈ o.vals, ok x) (hset : o.assigns = true → I.Sets Inv view seen ok) :
    match o.onList seen (view s) with
    | .ok l => ∃ t, o.run I seen s = .ok t ∧ Inv t ∧ view t = l
    | .error e => o.run I seen s = .error e := by
  have hor : ∀ {x : Option (List β)} {r : Except Err σ},
      (match x with | none => r = .error .indexError | some l => ∃ t, r = .ok t ∧ Inv t ∧ view t = l) →
      (match Spec.orIndexError x with | .ok l => ∃ t, r = .ok t ∧ Inv t ∧ view t = l | .error e => r = .error e) := by
    intro x r hx
    cases x with
    | none => exact hx
    | some l => exact hx
  cases o with
  | insert k x => exact A.insert s k x h (hx x (by simp [Spec.SeqOp.vals]))
  | append x => exact A.append h (hx x (by simp [Spec.SeqOp.vals]))
  | extend xs => exact A.extend h hx
  | set k x => exact hor (hset rfl s k x h (hx x (by simp [Spec.SeqOp.vals])))
  | del k => exact hor (A.del s k h)
  | pop k =>
    apply hor
    have hp := A.pop h k
    unfold pyDel
    simp only [Spec.SeqOp.run]
    cases hk : pyIndex k (view s).length with
    | none => rw [hk] at hp; simp only at hp; rw [hp]; rfl
    | some i =>
      rw [hk] at hp
      obtain ⟨t, v, h1, h2, h3, _⟩ := hp
      rw [h1]
      exact ⟨t, rfl, h2, h3⟩
  | remove eq =>
    have hr := A.remove h eq
    simp only [Spec.SeqOp.run, Spec.SeqOp.onList]
    split at hr
    · rw [if_pos (by assumption)]; exact hr
    · rw [if_neg (by assumption)]; exact hr
  | reverse => exact A.reverse (hset rfl) h

end SeqImpl
end Tomlkit
