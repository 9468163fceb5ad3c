import Verif.Proofs.Arrays
/-!
# Arrays without comments and without blanks before commas
-/
namespace Tomlkit

/-- white space or nothing -/
def WsOpt (i : Option Str) : Prop := ∀ s, i = some s → ∀ c ∈ s, isWs c = true

/-- a group with an element and no comment -/
def ValOk (P : Item → Prop) (g : AGroup) : Prop :=
  ∃ i v c, g = .val i v c none ∧ WsOpt i ∧ (c = none ∨ c = some [44]) ∧ P v

/-- every group but the last has a comma -/
def Commas : List AGroup → Prop
  | [] => True
  | g :: r => (r ≠ [] → g.comma = some [44]) ∧ Commas r

/-- white space before the closing bracket -/
def TailOk (t : List AGroup) : Prop := t = [] ∨ ∃ i, WsOpt i ∧ t = [.noval i none none]

/-- Elements, each with white space in front of it and a comma right behind it (the last one possibly without), then
white space. -/
structure Tidy (P : Item → Prop) (vs tl : List AGroup) : Prop where
  vals : ∀ g ∈ vs, ValOk P g
  commas : Commas vs
  tail : TailOk tl

theorem commas_append : ∀ {a b : List AGroup}, b ≠ [] → (Commas (a ++ b) ↔ (∀ g ∈ a, g.comma = some [44]) ∧ Commas b)
  | [], b, _ => by simp
  | g :: a, b, hb => by
    rw [List.cons_append, Commas, commas_append hb]
    constructor
    · rintro ⟨h1, h2, h3⟩
      exact ⟨by
        intro x hx
        rcases List.mem_cons.1 hx with rfl | hx
        · exact h1 (by simp [hb])
        · exact h2 x hx, h3⟩
    · rintro ⟨h1, h2⟩
      exact ⟨fun _ => h1 g (by simp), fun x hx => h1 x (by simp [hx]), h2⟩

theorem commas_left {a b : List AGroup} (h : Commas (a ++ b)) : Commas a := by
  by_cases hb : b = []
  · subst hb; simpa using h
  · have h1 := ((commas_append hb).1 h).1
    clear h
    induction a with
    | nil => trivial
    | cons g a ih => exact ⟨fun _ => h1 g (by simp), ih fun x hx => h1 x (by simp [hx])⟩

theorem commas_right {a b : List AGroup} (h : Commas (a ++ b)) : Commas b := by
  by_cases hb : b = []
  · subst hb; trivial
  · exact ((commas_append hb).1 h).2

/-- removing from the middle -/
theorem commas_erase {a b : List AGroup} {g : AGroup} (h : Commas (a ++ g :: b)) : Commas (a ++ b) := by
  have h1 := ((commas_append (by simp)).1 h)
  by_cases hb : b = []
  · subst hb; simpa using commas_left h
  · exact (commas_append hb).2 ⟨h1.1, h1.2.2⟩

theorem commas_head {g g' : AGroup} {b : List AGroup} (hc : g'.comma = g.comma) (h : Commas (g :: b)) : Commas (g' :: b) := by
  refine ⟨fun hb => ?_, h.2⟩
  rw [hc]; exact h.1 hb

theorem wsOpt_none : WsOpt none := fun s h => by cases h
theorem wsOpt_some {s : Str} (h : ∀ c ∈ s, isWs c = true) : WsOpt (some s) := fun s' h' => by cases h'; exact h

theorem ValOk.indent {P : Item → Prop} {g : AGroup} (h : ValOk P g) : WsOpt g.indent := by
  obtain ⟨i, v, c, rfl, h1, _⟩ := h; exact h1
theorem ValOk.notWs {P : Item → Prop} {g : AGroup} (h : ValOk P g) : g.isWsOnly = false := by
  obtain ⟨i, v, c, rfl, h1, _⟩ := h; rfl
theorem ValOk.setComma {P : Item → Prop} {g : AGroup} (h : ValOk P g) {c : Option Str} (hc : c = none ∨ c = some [44]) :
    ValOk P (g.setComma c) := by
  obtain ⟨i, v, c', rfl, h1, h2, h3⟩ := h; exact ⟨i, v, c, rfl, h1, hc, h3⟩
theorem ValOk.setIndent {P : Item → Prop} {g : AGroup} (h : ValOk P g) {i : Option Str} (hi : WsOpt i) :
    ValOk P (g.setIndent i) := by
  obtain ⟨i', v, c', rfl, h1, h2, h3⟩ := h; exact ⟨i, v, c', rfl, hi, h2, h3⟩
theorem ValOk.comma_or {P : Item → Prop} {g : AGroup} (h : ValOk P g) : g.comma = none ∨ g.comma = some [44] := by
  obtain ⟨i, v, c', rfl, h1, h2, h3⟩ := h; exact h2
theorem ValOk.notNull {P : Item → Prop} (hP : ∀ i, P i → i.isData = true) {g : AGroup} (h : ValOk P g) :
    g.isNullVal = false ∧ g.hasElem = true := by
  obtain ⟨i, v, c', rfl, h1, h2, h3⟩ := h
  have := hP v h3
  simp [Item.isData] at this
  simp [AGroup.isNullVal, AGroup.hasElem, this.2]

@[simp] theorem comma_setComma (g : AGroup) (c : Option Str) : (g.setComma c).comma = c := by cases g <;> rfl
@[simp] theorem comma_setIndent (g : AGroup) (c : Option Str) : (g.setIndent c).comma = g.comma := by cases g <;> rfl

theorem printed_vals {P : Item → Prop} (hP : ∀ i, P i → i.isData = true) {vs : List AGroup} (h : ∀ g ∈ vs, ValOk P g) :
    (printed vs).length = vs.length ∧ ∀ v ∈ printed vs, P v := by
  induction vs with
  | nil => exact ⟨rfl, fun v hv => by cases hv⟩
  | cons g r ih =>
    obtain ⟨h1, h2⟩ := ih fun x hx => h x (by simp [hx])
    obtain ⟨i, v, c, rfl, _, _, hv⟩ := h g (by simp)
    have hd := hP v hv
    simp [Item.isData] at hd
    have hp : printed (.val i v c none :: r) = v :: printed r := by simp [printed, hd.2]
    rw [hp]
    refine ⟨by simp [h1], fun x hx => ?_⟩
    rcases List.mem_cons.1 hx with rfl | hx
    · exact hv
    · exact h2 x hx

theorem printed_tail {tl : List AGroup} (h : TailOk tl) : printed tl = [] := by
  rcases h with rfl | ⟨i, _, rfl⟩ <;> rfl

theorem reindex_vals {P : Item → Prop} (hP : ∀ i, P i → i.isData = true) {vs : List AGroup} (h : ∀ g ∈ vs, ValOk P g) (k : Nat) :
    ∀ j, j < vs.length → (reindexFrom k vs)[j]? = some (k + j) := by
  induction vs generalizing k with
  | nil => intro j hj; cases hj
  | cons g r ih =>
    intro j hj
    have := (h g (by simp)).notNull hP
    rw [reindexFrom, if_pos this.2]
    rcases j with _ | j
    · rfl
    · rw [List.getElem?_cons_succ, ih (fun x hx => h x (by simp [hx])) (k + 1) j (by simp at hj; omega)]
      congr 1; omega

/-- the indent of the group at the place of an insertion -/
def placeIndent (gs : List AGroup) (idx : Nat) : Option Str :=
  match gs[idx]? with
  | some g => if g.isWsOnly then none else g.indent
  | none => none

theorem insertGroup_eq (gs : List AGroup) (idx : Nat) (dflt : Str) (atEnd : Bool) (it : Item) :
    insertGroup gs idx dflt atEnd it =
      if idx = 0 then
        gs.insertIdx idx (.val (if (placeIndent gs idx).isNone && hasNl dflt then some dflt else placeIndent gs idx) it
          (if atEnd then none else some (t!",")) none)
      else
        match gs[idx - 1]? with
        | none => gs.insertIdx idx (.val (placeIndent gs idx) it (if atEnd then none else some (t!",")) none)
        | some last =>
          (if last.comma.isNone && !last.isNullVal then gs.set (idx - 1) (last.setComma (some (t!","))) else gs).insertIdx idx
            (.val (if (if (placeIndent gs idx).isNone then last.indent else placeIndent gs idx).isNone then some dflt
                else (if (placeIndent gs idx).isNone then last.indent else placeIndent gs idx)) it
              (if !last.isNullVal && hasNl dflt then last.comma else (if atEnd then none else some (t!","))) none) := rfl

/-- the element added to a tidy list of groups -/
theorem tidy_insertGroup {P : Item → Prop} (hP : ∀ i, P i → i.isData = true) {pre post tl : List AGroup} (h : Tidy P (pre ++ post) tl)
    {it : Item} (hit : P it) {dflt : Str} (hd : ∀ c ∈ dflt, isWs c = true) (e : Bool) (he : e = true → post = [])
    (hpost : post = [] → e = true) :
    ∃ vs, insertGroup (pre ++ post ++ tl) pre.length dflt e it = vs ++ tl ∧ Tidy P vs tl := by
  -- the indent taken from the group at the place
  have hind : ∃ ind, WsOpt ind ∧ placeIndent (pre ++ post ++ tl) pre.length = ind ∧ (post = [] → ind = none) := by
    unfold placeIndent
    rcases post with _ | ⟨g, r⟩
    · refine ⟨none, wsOpt_none, ?_, fun _ => rfl⟩
      rcases h.tail with rfl | ⟨i, _, rfl⟩
      · simp
      · simp [AGroup.isWsOnly]
    · have hg := h.vals g (by simp)
      refine ⟨g.indent, hg.indent, ?_, fun h0 => by cases h0⟩
      simp [hg.notWs]
  obtain ⟨ind, hi1, hi2, hi3⟩ := hind
  rw [insertGroup_eq, hi2]
  split
  · rename_i h0
    have : pre = [] := List.eq_nil_of_length_eq_zero h0
    subst this
    simp only [List.length_nil, List.nil_append, List.insertIdx_zero]
    refine ⟨.val _ it (if e then none else some [44]) none :: post, rfl, ?_, ?_, h.tail⟩
    · intro g hg
      rcases List.mem_cons.1 hg with rfl | hg
      · refine ⟨_, _, _, rfl, ?_, by cases e <;> simp, hit⟩
        split
        · exact wsOpt_some hd
        · exact hi1
      · exact h.vals g (by simpa using hg)
    · refine ⟨fun hne => ?_, by simpa using h.commas⟩
      cases e
      · rfl
      · exact absurd (he rfl) hne
  · rename_i h0
    obtain ⟨p, last, rfl⟩ : ∃ p last, pre = p ++ [last] := by
      rcases List.eq_nil_or_concat pre with rfl | ⟨p, last, rfl⟩
      · simp at h0
      · exact ⟨p, last, by rw [List.concat_eq_append]⟩
    have hlast : (p ++ [last] ++ post ++ tl)[(p ++ [last]).length - 1]? = some last := by simp
    rw [hlast]
    simp only
    have hl := h.vals last (by simp)
    have hnn := hl.notNull hP
    have hset : ∀ g, (p ++ [last] ++ post ++ tl).set ((p ++ [last]).length - 1) g = (p ++ [g]) ++ (post ++ tl) := by
      intro g; simp
    have hpc : ∀ g ∈ p, g.comma = some [44] := by
      have := h.commas
      rw [List.append_assoc] at this
      exact ((commas_append (by simp)).1 this).1
    have hpost' : Commas post := commas_right h.commas
    have indOk : ∀ i0 : Option Str, i0 = (if ind.isNone = true then last.indent else ind) →
        WsOpt (if i0.isNone = true then some dflt else i0) := by
      intro i0 h1
      split
      · exact wsOpt_some hd
      · rw [h1]; split
        · exact hl.indent
        · exact hi1
    have indOk' := indOk _ rfl
    have fin : ∀ (last' : AGroup) (cm : Option Str), ValOk P last' → last'.comma = some [44] → (cm = none ∨ cm = some [44]) →
        (post ≠ [] → cm = some [44]) → ∀ i1, WsOpt i1 →
        Tidy P (p ++ [last'] ++ .val i1 it cm none :: post) tl := by
      intro last' cm hl' hc' hcm hcm' i1 hi1'
      refine ⟨fun g hg => ?_, ?_, h.tail⟩
      · simp only [List.append_assoc, List.cons_append, List.nil_append, List.mem_append, List.mem_cons] at hg
        rcases hg with hg | rfl | rfl | hg
        · exact h.vals g (by simp [hg])
        · exact hl'
        · exact ⟨_, _, _, rfl, hi1', hcm, hit⟩
        · exact h.vals g (by simp [hg])
      · rw [commas_append (by simp)]
        refine ⟨fun g hg => ?_, hcm', hpost'⟩
        rcases List.mem_append.1 hg with hg | hg
        · exact hpc g hg
        · rw [List.mem_singleton] at hg; subst hg; exact hc'
    -- the comma of the new group
    have hcm : ∀ cm, cm = (if (!last.isNullVal && hasNl dflt) = true then last.comma else if e = true then none else some (t!",")) →
        (cm = none ∨ cm = some [44]) ∧ (post ≠ [] → cm = some [44]) := by
      intro cm h1
      have hlc : post ≠ [] → last.comma = some [44] := by
        intro hne
        have := h.commas
        exact ((commas_append hne).1 this).1 last (by simp)
      have hen : post ≠ [] → e = false := by
        intro hne
        cases e
        · rfl
        · exact absurd (he rfl) hne
      rw [h1]
      split
      · exact ⟨hl.comma_or, hlc⟩
      · split
        · exact ⟨.inl rfl, fun hne => by rename_i h2; rw [hen hne] at h2; cases h2⟩
        · exact ⟨.inr rfl, fun _ => rfl⟩
    obtain ⟨cm1, cm2⟩ := hcm _ rfl
    split
    · rw [hset]
      have hl2 : (p ++ [last]).length = (p ++ [last.setComma (some (t!","))]).length := by simp
      rw [hl2, insertIdx_append]
      exact ⟨p ++ [last.setComma (some (t!","))] ++ .val _ it _ none :: post, by simp,
        fin _ _ (hl.setComma (.inr rfl)) (by simp) cm1 cm2 _ indOk'⟩
    · rename_i hc
      have hlc : last.comma = some [44] := by
        rcases hl.comma_or with h1 | h1
        · simp [h1, hnn.1] at hc
        · exact h1
      rw [List.append_assoc (p ++ [last]), insertIdx_append]
      exact ⟨p ++ [last] ++ .val _ it _ none :: post, by simp, fin _ _ hl hlc cm1 cm2 _ indOk'⟩

/-- the array object is tidy; `z`: it does not end with white space -/
def ArrObj.Tidy (P : Item → Prop) (z : Bool) (a : ArrObj) : Prop :=
  ∃ vs tl, a.groups = vs ++ tl ∧ Tomlkit.Tidy P vs tl ∧ (z = true → tl = [])

theorem mkArray_tidy (P : Item → Prop) : (mkArray []).Tidy P true :=
  ⟨[], [], rfl, ⟨(fun g hg => by cases hg), trivial, .inl rfl⟩, fun _ => rfl⟩

theorem insert_tidy {P : Item → Prop} (hP : ∀ i, P i → i.isData = true) {a b : ArrObj} (h : a.Inv) {z : Bool} (ht : a.Tidy P z) {k : Int} {it : Item}
    (hit : P it) (hr : a.insert k it = .ok b) : b.Tidy P z := by
  obtain ⟨vs, tl, hg, ht, hz⟩ := ht
  have hlen : a.list.length = vs.length := by
    rw [← h.elems, hg, printed_append, printed_tail ht.tail, List.append_nil, (printed_vals hP ht.vals).1]
  unfold ArrObj.insert at hr
  simp only at hr
  generalize hp : (if k < 0 then (k + a.list.length).toNat else k.toNat) = p at hr
  by_cases hlt : p < a.list.length
  · -- in front of an element
    have hpt : insertPoint a.groups a.imap a.list.length p = some (p, t!" ") := by
      unfold insertPoint
      rw [if_pos hlt, h.map, hg]
      unfold reindex
      rw [reindexFrom_append, List.getElem?_append_left, reindex_vals hP ht.vals 0 p (by omega)]
      · simp
      · have := reindexFrom_length 0 vs
        rw [(printed_vals hP ht.vals).1] at this
        omega
    rw [hpt] at hr
    cases hr
    have hsplit : vs = vs.take p ++ vs.drop p := (List.take_append_drop p vs).symm
    have hl : (vs.take p).length = p := by simp; omega
    have hne : vs.drop p ≠ [] := by
      intro h0
      have := congrArg List.length h0
      simp at this; omega
    rw [hsplit] at ht
    obtain ⟨vs', e1, e2⟩ := tidy_insertGroup hP ht hit (dflt := t!" ") (by decide) (!decide (p < a.list.length))
      (by simp [hlt]) (fun h0 => absurd h0 hne)
    rw [List.take_append_drop, hl, ← hg] at e1
    exact ⟨vs', tl, e1, e2, hz⟩
  · -- at the end
    have hpt : ∃ dflt : Str, insertPoint a.groups a.imap a.list.length p = some (vs.length, dflt) ∧ ∀ c ∈ dflt, isWs c = true := by
      unfold insertPoint
      rw [if_neg hlt, hg]
      dsimp only
      rcases ht.tail with rfl | ⟨i, _, rfl⟩
      · rw [List.append_nil]
        rcases List.eq_nil_or_concat vs with rfl | ⟨q, last, rfl⟩
        · exact ⟨_, rfl, by decide⟩
        · rw [List.concat_eq_append] at ht ⊢
          have := (ht.vals last (by simp)).notWs
          simp only [List.getLast?_append, List.getLast?_singleton, Option.some_or, this]
          exact ⟨_, rfl, by decide⟩
      · simp only [List.getLast?_append, List.getLast?_singleton, Option.some_or, AGroup.isWsOnly, if_true, List.length_append,
          List.length_singleton, Nat.add_sub_cancel, AGroup.indent]
        refine ⟨_, rfl, ?_⟩
        cases i
        · decide
        · dsimp only
          split <;> decide
    obtain ⟨dflt, hpt, hd⟩ := hpt
    rw [hpt] at hr
    cases hr
    have ht' : Tidy P (vs ++ []) tl := by rw [List.append_nil]; exact ht
    obtain ⟨vs', e1, e2⟩ := tidy_insertGroup hP ht' hit hd (!decide (p < a.list.length)) (fun _ => rfl) (by simp [hlt])
    rw [List.append_nil, ← hg] at e1
    exact ⟨vs', tl, e1, e2, hz⟩

/-! ## Assignment and deletion -/

theorem commas_modify {vs : List AGroup} {f : AGroup → AGroup} (hf : ∀ g, (f g).comma = g.comma) (i : Nat) (h : Commas vs) :
    Commas (vs.modify i f) := by
  induction vs generalizing i with
  | nil => cases i <;> trivial
  | cons g r ih =>
    rcases i with _ | i
    · rw [List.modify_zero_cons]; exact commas_head (hf g) h
    · rw [List.modify_succ_cons]
      refine ⟨fun hne => h.1 ?_, ih i h.2⟩
      rintro rfl
      cases i <;> simp at hne

theorem setItem_tidy {P : Item → Prop} (hP : ∀ i, P i → i.isData = true) {a b : ArrObj} (h : a.Inv) {z : Bool} (ht : a.Tidy P z) {k : Int} {it : Item}
    (hit : P it) (hr : a.setItem k it = .ok b) : b.Tidy P z := by
  obtain ⟨vs, tl, hg, ht, hz⟩ := ht
  have hlen : a.list.length = vs.length := by
    rw [← h.elems, hg, printed_append, printed_tail ht.tail, List.append_nil, (printed_vals hP ht.vals).1]
  unfold ArrObj.setItem at hr
  rcases hk : pyIndex k a.list.length with _ | i <;> rw [hk] at hr
  · cases hr
  obtain ⟨hi, _⟩ := pyIndex_some hk
  have hm : a.imap[i]? = some i := by
    rw [h.map, hg]
    unfold reindex
    rw [reindexFrom_append, List.getElem?_append_left, reindex_vals hP ht.vals 0 i (by omega)]
    · simp
    · have := reindexFrom_length 0 vs
      rw [(printed_vals hP ht.vals).1] at this
      omega
  dsimp only at hr
  rw [hm] at hr
  cases hr
  have hml : (vs ++ tl).modify i (AGroup.setValue it) = vs.modify i (AGroup.setValue it) ++ tl := by
    rw [show vs = vs.take i ++ vs.drop i from (List.take_append_drop i vs).symm]
    obtain ⟨x, r, hx⟩ : ∃ x r, vs.drop i = x :: r := by
      rcases hd : vs.drop i with _ | ⟨x, r⟩
      · have := congrArg List.length hd
        simp at this; omega
      · exact ⟨x, r, rfl⟩
    have hl : (vs.take i).length = i := by simp; omega
    rw [hx, List.append_assoc, List.cons_append]
    have m1 := modify_append (vs.take i) (r ++ tl) x (AGroup.setValue it)
    have m2 := modify_append (vs.take i) r x (AGroup.setValue it)
    rw [hl] at m1 m2
    rw [m1, m2]; simp
  refine ⟨vs.modify i (AGroup.setValue it), tl, by rw [hg, hml], ⟨?_, ?_, ht.tail⟩, hz⟩
  · intro g hg'
    have : g ∈ vs ∨ ∃ x ∈ vs, g = x.setValue it := by
      obtain ⟨j, hj⟩ := List.getElem?_of_mem hg'
      rw [List.getElem?_modify] at hj
      rcases hx : vs[j]? with _ | x <;> rw [hx] at hj
      · cases hj
      · have hmem := List.mem_of_getElem? hx
        by_cases hij : i = j
        · simp [hij] at hj; exact .inr ⟨x, hmem, hj.symm⟩
        · simp [hij] at hj; subst hj; exact .inl hmem
    rcases this with h1 | ⟨x, h1, rfl⟩
    · exact ht.vals g h1
    · obtain ⟨j, v, c, rfl, q1, q2, _⟩ := ht.vals x h1
      exact ⟨j, it, c, rfl, q1, q2, hit⟩
  · exact commas_modify (fun g => by cases g <;> rfl) i ht.commas

theorem deleteGroup_tidy {P : Item → Prop} {vs tl : List AGroup} (ht : Tidy P vs tl) {idx : Nat} (hi : idx < vs.length) :
    ∃ vs' tl', deleteGroup (vs ++ tl) idx = vs' ++ tl' ∧ Tidy P vs' tl' ∧ vs'.length = vs.length - 1 ∧ (tl = [] → tl' = []) := by
  obtain ⟨pre, g, post, rfl, rfl⟩ : ∃ a x b, vs = a ++ x :: b ∧ a.length = idx :=
    ⟨vs.take idx, vs[idx], vs.drop (idx + 1), by rw [List.getElem_cons_drop, List.take_append_drop], by simp; omega⟩
  unfold deleteGroup
  rw [List.append_assoc, List.cons_append, eraseIdx_mid]
  dsimp only
  have hv : ∀ x ∈ pre ++ post, ValOk P x := fun x hx => ht.vals x (by
    rcases List.mem_append.1 hx with hx | hx <;> simp [hx])
  split
  · rename_i h0
    have : pre = [] := List.eq_nil_of_length_eq_zero h0
    subst this
    have hcm : Commas post := ht.commas.2
    rcases post with _ | ⟨q, r⟩
    · rcases ht.tail with rfl | ⟨i, hi, rfl⟩
      · exact ⟨[], [], rfl, ⟨(fun g hg => by cases hg), trivial, .inl rfl⟩, rfl, fun _ => rfl⟩
      · refine ⟨[], _, rfl, ⟨(fun g hg => by cases hg), trivial, .inr ?_⟩, rfl, fun h => by cases h⟩
        dsimp only [AGroup.indent]
        split
        · split
          · exact ⟨_, hi, rfl⟩
          · exact ⟨none, wsOpt_none, rfl⟩
        · exact ⟨_, hi, rfl⟩
    · have hq := hv q (by simp)
      have hq' : ValOk P (match q.indent with | some s => if hasNl s then q else q.setIndent none | none => q) ∧
          (match q.indent with | some s => if hasNl s then q else q.setIndent none | none => q).comma = q.comma := by
        split
        · split
          · exact ⟨hq, rfl⟩
          · exact ⟨hq.setIndent wsOpt_none, by simp⟩
        · exact ⟨hq, rfl⟩
      refine ⟨_ :: r, tl, rfl, ⟨fun g hg => ?_, commas_head hq'.2 hcm, ht.tail⟩, by simp, fun h => h⟩
      rcases List.mem_cons.1 hg with rfl | hg
      · exact hq'.1
      · exact hv g (by simp [hg])
  · exact ⟨pre ++ post, tl, by simp, ⟨hv, commas_erase ht.commas, ht.tail⟩, by simp, fun h => h⟩

theorem trim_tidy {P : Item → Prop} {vs tl : List AGroup} (ht : Tidy P vs tl) :
    ∃ vs', trimLastComma (vs ++ tl) = vs' ++ tl ∧ Tidy P vs' tl := by
  unfold trimLastComma
  rcases ht.tail with rfl | ⟨i, hi, rfl⟩
  · rw [List.append_nil]
    rcases List.eq_nil_or_concat vs with rfl | ⟨q, last, rfl⟩
    · exact ⟨[], rfl, ht⟩
    · rw [List.concat_eq_append] at ht ⊢
      have hl := ht.vals last (by simp)
      simp only [List.getLast?_append, List.getLast?_singleton, Option.some_or, hl.notWs, Bool.false_eq_true, if_false,
        List.dropLast_concat, List.append_nil]
      refine ⟨_, rfl, ⟨fun g hg => ?_, ?_, ht.tail⟩⟩
      · rcases List.mem_append.1 hg with hg | hg
        · exact ht.vals g (by simp [hg])
        · rw [List.mem_singleton] at hg; subst hg; exact hl.setComma (.inl rfl)
      · rw [commas_append (by simp)]
        exact ⟨((commas_append (by simp)).1 ht.commas).1, by simp, trivial⟩
  · refine ⟨vs, ?_, ht⟩
    simp [AGroup.isWsOnly]

theorem del_tidy {P : Item → Prop} (hP : ∀ i, P i → i.isData = true) {a b : ArrObj} (h : a.Inv) {z : Bool} (ht : a.Tidy P z) {k : Int}
    (hr : a.delItem k = .ok b) : b.Tidy P z := by
  obtain ⟨vs, tl, hg, ht, hz⟩ := ht
  have hlen : a.list.length = vs.length := by
    rw [← h.elems, hg, printed_append, printed_tail ht.tail, List.append_nil, (printed_vals hP ht.vals).1]
  unfold ArrObj.delItem pyDel at hr
  rcases hk : pyIndex k a.list.length with _ | i <;> rw [hk] at hr
  · cases hr
  obtain ⟨hi, hik⟩ := pyIndex_some hk
  have hidx : (if k < 0 then (a.list.length : Int) + k else k) = (i : Int) := by
    rw [hik]; split <;> omega
  have hm : a.imap[i]? = some i := by
    rw [h.map, hg]
    unfold reindex
    rw [reindexFrom_append, List.getElem?_append_left, reindex_vals hP ht.vals 0 i (by omega)]
    · simp
    · have := reindexFrom_length 0 vs
      rw [(printed_vals hP ht.vals).1] at this
      omega
  simp only [Option.map_some, hidx] at hr
  rw [if_pos (by omega)] at hr
  simp only [Int.toNat_natCast, hm] at hr
  cases hr
  obtain ⟨vs', tl', e1, e2, _, e5⟩ := deleteGroup_tidy ht (idx := i) (by omega)
  obtain ⟨vs'', e3, e4⟩ := trim_tidy e2
  exact ⟨vs'', tl', by rw [hg, e1, e3], e4, fun h => e5 (hz h)⟩

theorem append_tidy {P : Item → Prop} (hP : ∀ i, P i → i.isData = true) {a b : ArrObj} (h : a.Inv) {z : Bool} (ht : a.Tidy P z) {it : Item}
    (hit : P it) (hr : a.append it = .ok b) : b.Tidy P z := insert_tidy hP h ht hit hr

theorem extend_tidy {P : Item → Prop} (hP : ∀ i, P i → i.isData = true) {z : Bool} : ∀ {its : List Item} {a b : ArrObj}, a.Inv → a.Tidy P z →
    (∀ i ∈ its, P i) → a.extend its = .ok b → b.Tidy P z
  | [], a, b, _, ht, _, hr => by cases hr; exact ht
  | it :: r, a, b, h, ht, hi, hr => by
    obtain ⟨c, h1, h2, _⟩ := append_inv h it (hP it (hi it (by simp)))
    rw [ArrObj.extend, h1] at hr
    exact extend_tidy hP h2 (append_tidy hP h ht (hi it (by simp)) h1) (fun x hx => hi x (by simp [hx])) hr

/-! ## add_line -/

/-- the elements of a line, each followed by a comma -/
theorem groupLoop_line {P : Item → Prop} (hP : ∀ i, P i → i.isData = true) (n : Nat) : ∀ (its : List Item) (i : Nat) (ind : Option Str),
    its ≠ [] → i + its.length = n → (∀ it ∈ its, P it) → WsOpt ind →
    ∃ vs gs, addLineLoop true n i [] its = some vs ∧ groupLoop { indent := ind } vs = gs ∧ gs ≠ [] ∧
      ∀ g ∈ gs, ValOk P g ∧ g.comma = some [44] := by
  intro its
  induction its with
  | nil => intro i ind h; exact absurd rfl h
  | cons it r ih =>
    intro i ind _ hn hp hind
    have hit := hp it (by simp)
    have hd := hP it hit
    have hd' : it.isWhitespace = false ∧ it.isComment = false ∧ it.isNull = false := by
      simp [Item.isData] at hd; exact ⟨hd.1.1, hd.1.2, hd.2⟩
    have hfil : it.isFiller = false := by simp [Item.isFiller, hd'.1, hd'.2.1]
    have hstep : addLineLoop true n i [] (it :: r) = (addLineLoop true n (i + 1) [] r).map fun rest =>
        it :: .ws (t!",") false :: ((if i + 1 != n then [.ws (t!" ") false] else []) ++ rest) := by
      conv => lhs; unfold addLineLoop
      rw [if_neg (by simp [hd'.1, hd'.2.1])]
      have := hd'.1
      cases it <;> first | rfl | cases this
    rw [hstep]
    have hfirst : ∀ rest, groupLoop { indent := ind } (it :: .ws (t!",") false :: rest) =
        groupLoop { indent := ind, v := some it, comma := some [44] } rest := by
      intro rest
      rw [groupLoop_other _ _ _ hfil, if_pos (show (Option.none : Option Item).isNone = true from rfl), groupLoop]
      rfl
    have hflush : flushGroup { indent := ind, v := some it, comma := some [44] } = [.val ind it (some [44]) none] := by
      cases ind <;> rfl
    have hok : ValOk P (.val ind it (some [44]) none) := ⟨ind, it, some [44], rfl, hind, .inr rfl, hit⟩
    rcases r with _ | ⟨it2, r⟩
    · refine ⟨_, [.val ind it (some [44]) none], rfl, ?_, by simp, ?_⟩
      · simp only [List.length_cons, List.length_nil] at hn
        have : (i + 1 != n) = false := by simp; omega
        rw [this]
        simp only [Bool.false_eq_true, if_false, List.nil_append, List.isEmpty_nil, if_true]
        rw [hfirst]
        exact hflush
      · intro g hg
        rw [List.mem_singleton] at hg
        subst hg; exact ⟨hok, rfl⟩
    · obtain ⟨vs, gs, h1, h2, h3, h4⟩ := ih (i + 1) (some [32]) (by simp) (by simp at hn ⊢; omega) (fun x hx => hp x (by simp [hx]))
        (wsOpt_some (by decide))
      rw [h1]
      refine ⟨_, .val ind it (some [44]) none :: gs, rfl, ?_, by simp, ?_⟩
      · have : (i + 1 != n) = true := by simp at hn ⊢; omega
        rw [this]
        simp only [if_true, List.cons_append, List.nil_append]
        rw [hfirst, groupLoop, if_pos (by decide), h2, hflush]
        rfl
      · intro g hg
        rcases List.mem_cons.1 hg with rfl | hg
        · exact ⟨hok, rfl⟩
        · exact h4 g hg

/-- the comma behind the last element -/
theorem setLastComma_vals {P : Item → Prop} (hP : ∀ i, P i → i.isData = true) {tl : List AGroup} (ht : TailOk tl) :
    ∀ {vs : List AGroup}, (∀ g ∈ vs, ValOk P g) → Commas vs →
    ∃ vs', setLastComma (vs ++ tl) = vs' ++ tl ∧ ∀ g ∈ vs', ValOk P g ∧ g.comma = some [44]
  | [], _, _ => by
    refine ⟨[], ?_, fun g hg => by cases hg⟩
    rcases ht with rfl | ⟨i, _, rfl⟩
    · rfl
    · rfl
  | g :: r, hv, hc => by
    have hg := hv g (by simp)
    have hr : ∀ x ∈ r, ValOk P x := fun x hx => hv x (by simp [hx])
    rw [List.cons_append]
    unfold setLastComma
    rcases r with _ | ⟨g2, r⟩
    · have : (([] : List AGroup) ++ tl).any AGroup.hasElem = false := by
        rcases ht with rfl | ⟨i, _, rfl⟩ <;> rfl
      rw [this, (hg.notNull hP).2]
      simp only [Bool.false_eq_true, if_false, if_true]
      refine ⟨[g.setComma (some [44])], rfl, fun x hx => ?_⟩
      rw [List.mem_singleton] at hx
      subst hx
      exact ⟨hg.setComma (.inr rfl), by simp⟩
    · have : ((g2 :: r) ++ tl).any AGroup.hasElem = true := by
        rw [List.cons_append, List.any_cons, ((hr g2 (by simp)).notNull hP).2]; rfl
      rw [if_pos this]
      obtain ⟨vs', h1, h2⟩ := setLastComma_vals hP ht (vs := g2 :: r) hr hc.2
      refine ⟨g :: vs', by rw [h1]; rfl, fun x hx => ?_⟩
      rcases List.mem_cons.1 hx with rfl | hx
      · exact ⟨hg, hc.1 (by simp)⟩
      · exact h2 x hx

theorem commas_all : ∀ {vs : List AGroup}, (∀ g ∈ vs, g.comma = some [44]) → Commas vs
  | [], _ => trivial
  | g :: r, h => ⟨fun _ => h g (by simp), commas_all fun x hx => h x (by simp [hx])⟩

/-- a line of elements, or an empty line at the end -/
theorem addLine_tidy {P : Item → Prop} (hP : ∀ i, P i → i.isData = true) {a b : ArrObj} {z : Bool} (ht : a.Tidy P z)
    {its : List Item} {indent : Str} {newline : Bool} (hits : ∀ it ∈ its, P it) (hind : ∀ c ∈ indent, isWs c = true)
    (hz0 : its = [] → z = true) (hr : a.addLine its indent none true newline = .ok b) : b.Tidy P (z && !its.isEmpty) := by
  obtain ⟨vs, tl, hg, ht, hz⟩ := ht
  unfold ArrObj.addLine addLineValues at hr
  generalize hfirst : (if newline = true then 10 :: indent else indent) = first at hr
  have hfw : ∀ c ∈ first, isWs c = true := by
    rw [← hfirst]
    split
    · intro c hc
      rcases List.mem_cons.1 hc with rfl | hc
      · rfl
      · exact hind c hc
    · exact hind
  have hnc : first.contains 44 = false := by
    rw [Bool.eq_false_iff]
    intro h
    have := hfw 44 (by simpa using h)
    cases this
  -- the new groups
  have hnew : ∃ vs0, addLineLoop true its.length 0 [] its = some vs0 ∧
      ((its ≠ [] ∧ ∀ g ∈ groupValues ((if first.isEmpty then [] else [.ws first false]) ++ vs0 ++ lineComment its none),
        ValOk P g ∧ g.comma = some [44]) ∨
      (its = [] ∧ TailOk (groupValues ((if first.isEmpty then [] else [.ws first false]) ++ vs0 ++ lineComment its none)))) := by
    have hlc : lineComment its none = [] := rfl
    rw [hlc]
    by_cases hi : its = []
    · subst hi
      refine ⟨_, rfl, .inr ⟨rfl, ?_⟩⟩
      simp only [List.isEmpty_nil, if_true, List.append_nil]
      unfold groupValues
      split
      · left; rfl
      · right
        refine ⟨some first, wsOpt_some hfw, ?_⟩
        rw [groupLoop, if_pos (by rw [hnc]; rfl)]
        rfl
    · by_cases hf : first.isEmpty = true
      · obtain ⟨vs0, gs, h1, h2, _, h4⟩ := groupLoop_line hP its.length its 0 none hi (by simp) hits wsOpt_none
        refine ⟨vs0, h1, .inl ⟨hi, ?_⟩⟩
        rw [if_pos hf, List.nil_append, List.append_nil]
        unfold groupValues
        rw [h2]; exact h4
      · obtain ⟨vs0, gs, h1, h2, _, h4⟩ := groupLoop_line hP its.length its 0 (some first) hi (by simp) hits (wsOpt_some hfw)
        refine ⟨vs0, h1, .inl ⟨hi, ?_⟩⟩
        rw [if_neg hf, List.append_nil]
        unfold groupValues
        rw [List.cons_append, List.nil_append, groupLoop, if_pos (by rw [hnc]; rfl), h2]
        exact h4
  obtain ⟨vs0, h1, hnew⟩ := hnew
  rw [h1] at hr
  dsimp only [Option.map_some] at hr
  generalize groupValues ((if first.isEmpty then [] else [.ws first false]) ++ vs0 ++ lineComment its none) = new at hr hnew
  split at hr
  · cases hr
  cases hr
  unfold ArrObj.Tidy
  dsimp only
  rcases hl : a.groups.getLast? with _ | last
  · dsimp only
    rcases hnew with ⟨hi, hn⟩ | ⟨hi, hn⟩
    · exact ⟨new, [], by simp, ⟨fun g hg => (hn g hg).1, commas_all fun g hg => (hn g hg).2, .inl rfl⟩, fun _ => rfl⟩
    · refine ⟨[], new, rfl, ⟨(fun g hg => by cases hg), trivial, hn⟩, ?_⟩
      rw [hi]; simp
  · dsimp only
    obtain ⟨vs', hs1, hs2⟩ := setLastComma_vals hP ht.tail ht.vals ht.commas
    rw [hg, hs1]
    rw [hg] at hl
    split
    · rename_i hws
      -- the white space at the end stays there
      obtain ⟨w, hw, htl⟩ : ∃ i, WsOpt i ∧ tl = [.noval i none none] := by
        rcases ht.tail with rfl | h
        · rw [List.append_nil] at hl
          have := (ht.vals last (List.mem_of_getLast? hl)).notWs
          rw [this] at hws; cases hws
        · exact h
      have hi : its ≠ [] := by
        intro hi
        have := hz (hz0 hi)
        rw [htl] at this; cases this
      rcases hnew with ⟨_, hn⟩ | ⟨hi', _⟩
      · refine ⟨vs' ++ new, tl, ?_, ⟨?_, ?_, ht.tail⟩, ?_⟩
        · rw [htl, List.dropLast_concat]
          have : (vs' ++ [AGroup.noval w none none]).drop ((vs' ++ [AGroup.noval w none none]).length - 1) = [.noval w none none] := by simp
          rw [this]
        · intro g hg
          rcases List.mem_append.1 hg with hg | hg
          · exact (hs2 g hg).1
          · exact (hn g hg).1
        · exact commas_all fun g hg => by
            rcases List.mem_append.1 hg with hg | hg
            · exact (hs2 g hg).2
            · exact (hn g hg).2
        · intro h
          simp only [Bool.and_eq_true] at h
          exact hz h.1
      · exact absurd hi' hi
    · rename_i hws
      have htl : tl = [] := by
        rcases ht.tail with h | ⟨i, _, rfl⟩
        · exact h
        · rw [List.getLast?_append] at hl
          simp at hl
          subst hl
          exact absurd rfl hws
      subst htl
      rw [List.append_nil]
      rcases hnew with ⟨hi, hn⟩ | ⟨hi, hn⟩
      · refine ⟨vs' ++ new, [], by simp, ⟨?_, ?_, .inl rfl⟩, fun _ => rfl⟩
        · intro g hg
          rcases List.mem_append.1 hg with hg | hg
          · exact (hs2 g hg).1
          · exact (hn g hg).1
        · exact commas_all fun g hg => by
            rcases List.mem_append.1 hg with hg | hg
            · exact (hs2 g hg).2
            · exact (hn g hg).2
      · refine ⟨vs', new, rfl, ⟨fun g hg => (hs2 g hg).1, commas_all fun g hg => (hs2 g hg).2, hn⟩, ?_⟩
        rw [hi]; simp

/-- the elements that an operation brings in -/
def LOp.items : LOp → List Item
  | .insert _ it | .append it | .set _ it => [it]
  | .extend its => its
  | .addLine its _ _ _ _ => its
  | _ => []

/-- a line without elements -/
def LOp.isBlank : LOp → Bool
  | .addLine its _ _ _ _ => its.isEmpty
  | _ => false

/-- `add_line` as it is covered here: without a comment, with commas, and indented with white space -/
def LOp.PlainLine : LOp → Prop
  | .addLine _ indent comment addComma _ => comment = none ∧ addComma = true ∧ ∀ c ∈ indent, isWs c = true
  | _ => True

theorem op_tidy {P : Item → Prop} (hP : ∀ i, P i → i.isData = true) {a b : ArrObj} (h : a.Inv) {z : Bool} (ht : a.Tidy P z) {o : LOp}
    (ho : ∀ i ∈ o.items, P i) (hl : o.PlainLine) (hz : o.isBlank = true → z = true) (hr : o.onArray a = .ok b) :
    b.Tidy P (z && !o.isBlank) := by
  cases o with
  | insert k it => refine (Bool.and_true z).symm ▸ ?_; exact insert_tidy hP h ht (ho it (by simp [LOp.items])) hr
  | append it => refine (Bool.and_true z).symm ▸ ?_; exact append_tidy hP h ht (ho it (by simp [LOp.items])) hr
  | extend its => refine (Bool.and_true z).symm ▸ ?_; exact extend_tidy hP h ht ho hr
  | set k it => refine (Bool.and_true z).symm ▸ ?_; exact setItem_tidy hP h ht (ho it (by simp [LOp.items])) hr
  | del k => refine (Bool.and_true z).symm ▸ ?_; exact del_tidy hP h ht hr
  | pop k => refine (Bool.and_true z).symm ▸ ?_; exact del_tidy hP h ht hr
  | clear => cases hr; exact ⟨[], [], rfl, ⟨(fun g hg => by cases hg), trivial, .inl rfl⟩, fun _ => rfl⟩
  | addLine its indent comment ac nl =>
    obtain ⟨rfl, rfl, hind⟩ := hl
    exact addLine_tidy hP ht ho hind (fun hi => hz (by rw [hi]; rfl)) hr

end Tomlkit
