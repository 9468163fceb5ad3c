import Verif.Proofs.TwinAppend
import Verif.Proofs.LocalItems
import Verif.Proofs.ParsedFlat
/-!
# Tables and arrays of tables that differ in the values of their lines
-/
namespace Tomlkit
open _root_.Spec Tomlkit.Spec

theorem TwinC.validateAll {ts : List (Item × Item)} {c c' : Cont} (h : TwinC ts c c') (hv : c.validateAll = .ok ()) : c'.validateAll = .ok () := by
  have hm : c'.map = c.map := by rw [← Cont.skel_map c', h.skel, Cont.skel_map]
  have := checks_skel (f := Cont.has (fuelFor c' (.null {})) c') (g := Cont.has (fuelFor c (.null {})) c) (fun k => by
    have h1 := (append1_skel (fuelFor c (.null {}))).2.1 c k h.good
    have h2 := (append1_skel (fuelFor c (.null {}))).2.1 c' k h.good'
    rw [fuelFor_eq h.skel rfl, ← h2, h.skel, h1]) (c.map.map (·.1))
  unfold Cont.validateAll at hv ⊢
  rw [hv, ← hm] at this
  revert this
  generalize foldE (fun _ k => (Cont.has (fuelFor c' (.null {})) c' k).map fun _ => ()) () (c'.map.map (·.1)) = x
  intro h
  rcases x with e | ⟨⟩
  · cases h
  · rfl

theorem twin_leaf (h : Header) (nm : Str) : TwinT [] (h.leaf nm) (h.leaf nm) :=
  ⟨rfl, rfl, (Tbl.good_iff _).1 (leaf_good h nm), (Tbl.good_iff _).1 (leaf_good h nm), ⟨rfl, trivial⟩, ⟨rfl, trivial⟩, rfl, rfl⟩

theorem TwinT.item {ts : List (Item × Item)} {t t' : Tbl} (h : TwinT ts t t') : TwinI ts (.table t) (.table t') := by
  refine ⟨?_, (Tbl.good_iff t).2 h.cont.good, (Tbl.good_iff t').2 h.cont.good', ?_, ?_⟩
  · show Item.table t'.skel = .table t.skel
    rw [h.skel]
  · exact (Tbl.leaves_eq t).trans h.cont.left
  · exact (Tbl.leaves_eq t').trans h.cont.right

theorem chain_skel (h : Header) {t t' : Tbl} (hs : t'.skel = t.skel) : ∀ (ks : List SKey) (tr : Trivia) (a : Bool) (nm : Str),
    (h.chain t' tr a nm ks).skel = (h.chain t tr a nm ks).skel
  | [], _, _, _ => hs
  | [k], tr, a, nm => by
    have e : ∀ t, h.chain t tr a nm [k] = wrapOne k (if h.isAot then mkAoT [t] (some nm) true else .table t) tr a nm := fun _ => rfl
    rw [e, e]
    have e2 : ∀ v v' : Item, v'.skel = v.skel → v'.isTable = v.isTable → (wrapOne k v' tr a nm).skel = (wrapOne k v tr a nm).skel := by
      intro v v' h1 h2
      unfold wrapOne
      rw [h2]
      show Tbl.mk (.mk [.mk (some k) v'.skel] _ _ _ _) _ _ _ _ _ = Tbl.mk (.mk [.mk (some k) v.skel] _ _ _ _) _ _ _ _ _
      rw [h1]
    cases h.isAot
    · exact e2 _ _ (show Item.table t'.skel = .table t.skel by rw [hs]) rfl
    · refine e2 _ _ ?_ ?_
      · simp only [if_true]
        rw [mkAoT_skel, mkAoT_skel, List.map_singleton, List.map_singleton, hs]
      · simp only [if_true]
        rw [mkAoT_parsed, mkAoT_parsed]; rfl
  | k :: k2 :: r, tr, a, nm => by
    have := chain_skel h hs (k2 :: r) ⟨h.indent, h.cws, h.comment, h.trail⟩ false k.key
    show Tbl.mk (.mk [.mk (some k) (.table (h.chain t' ⟨h.indent, h.cws, h.comment, h.trail⟩ false k.key (k2 :: r)).skel)] _ _ _ _) _ _ _ _ _ =
      Tbl.mk (.mk [.mk (some k) (.table (h.chain t ⟨h.indent, h.cws, h.comment, h.trail⟩ false k.key (k2 :: r)).skel)] _ _ _ _) _ _ _ _ _
    rw [this]
    rfl

theorem chain_leaves (h : Header) (t : Tbl) : ∀ (ks : List SKey) (tr : Trivia) (a : Bool) (nm : Str), (h.chain t tr a nm ks).leaves = t.leaves
  | [], _, _, _ => rfl
  | [k], tr, a, nm => by
    show (if h.isAot then mkAoT [t] (some nm) true else .table t).leaves ++ [] = _
    rw [List.append_nil]
    cases h.isAot
    · rfl
    · simp only [if_true]
      rw [mkAoT_parsed]
      show t.leaves ++ [] = _
      rw [List.append_nil]
  | k :: k2 :: r, tr, a, nm => by
    have := chain_leaves h t (k2 :: r) ⟨h.indent, h.cws, h.comment, h.trail⟩ false k.key
    show (h.chain t ⟨h.indent, h.cws, h.comment, h.trail⟩ false k.key (k2 :: r)).leaves ++ [] = _
    rw [List.append_nil, this]

theorem TwinI.chain {ts : List (Item × Item)} {t t' : Tbl} (h : TwinT ts t t') (hd : Header) (ks : List SKey) (tr : Trivia) (a : Bool) (nm : Str) :
    TwinI ts (.table (hd.chain t tr a nm ks)) (.table (hd.chain t' tr a nm ks)) := by
  refine ⟨?_, chain_good hd ((Tbl.good_iff _).2 h.cont.good) _ _ _ _, chain_good hd ((Tbl.good_iff _).2 h.cont.good') _ _ _ _, ?_, ?_⟩
  · show Item.table (Tbl.skel _) = .table (Tbl.skel _)
    rw [chain_skel hd h.skel]
  · exact (chain_leaves hd t ks tr a nm).trans h.item.left
  · exact (chain_leaves hd t' ks tr a nm).trans h.item.right

/-- an array of tables, as the parser makes it -/
def aotOf (l : List Tbl) : Item := .aot l { trail := [] } none true

theorem aotOf_eq (l : List Tbl) : mkAoT l none true = aotOf l := mkAoT_parsed l none

theorem aotOf_leaves (l : List Tbl) : (aotOf l).leaves = l.flatMap Tbl.leaves := leavesTables_eq l

theorem TwinI.one {ts : List (Item × Item)} {t t' : Tbl} (h : TwinI ts (.table t) (.table t')) : TwinI ts (aotOf [t]) (aotOf [t']) := by
  have hs : t'.skel = t.skel := by
    have := h.skel
    have : Item.table t'.skel = .table t.skel := this
    exact Item.table.inj this
  refine ⟨?_, (Item.good_aot ..).2 (by intro x hx; rw [List.mem_singleton] at hx; subst hx; exact h.good),
    (Item.good_aot ..).2 (by intro x hx; rw [List.mem_singleton] at hx; subst hx; exact h.good'), ?_, ?_⟩
  · show Item.aot [t'.skel] _ _ _ = .aot [t.skel] _ _ _
    rw [hs]
  · rw [aotOf_leaves, List.flatMap_singleton]; exact h.left
  · rw [aotOf_leaves, List.flatMap_singleton]; exact h.right

theorem TwinI.snoc {ts us : List (Item × Item)} {l l' : List Tbl} {t t' : Tbl} (h : TwinI ts (aotOf l) (aotOf l')) (ht : TwinI us (.table t) (.table t')) :
    TwinI (ts ++ us) (aotOf (l ++ [t])) (aotOf (l' ++ [t'])) := by
  have hs : t'.skel = t.skel := by
    have := ht.skel
    have : Item.table t'.skel = .table t.skel := this
    exact Item.table.inj this
  have hl : l'.map Tbl.skel = l.map Tbl.skel := by
    have := h.skel
    have : Item.aot l'.skelTables { trail := [] } none true = .aot l.skelTables { trail := [] } none true := this
    rw [← skelTables_eq, ← skelTables_eq]
    injection this
  have g1 := (Item.good_aot ..).1 h.good
  have g2 := (Item.good_aot ..).1 h.good'
  refine ⟨?_, (Item.good_aot ..).2 ?_, (Item.good_aot ..).2 ?_, ?_, ?_⟩
  · show Item.aot (l' ++ [t']).skelTables _ _ _ = .aot (l ++ [t]).skelTables _ _ _
    rw [skelTables_eq, skelTables_eq, List.map_append, List.map_append, hl, List.map_singleton, List.map_singleton, hs]
  · intro x hx
    rcases List.mem_append.1 hx with hx | hx
    · exact g1 x hx
    · rw [List.mem_singleton] at hx; subst hx; exact ht.good
  · intro x hx
    rcases List.mem_append.1 hx with hx | hx
    · exact g2 x hx
    · rw [List.mem_singleton] at hx; subst hx; exact ht.good'
  · have h1 := h.left
    have h2 : t.leaves = _ := ht.left
    rw [aotOf_leaves] at h1 ⊢
    rw [List.flatMap_append, List.flatMap_singleton, h1, h2, List.map_append]
  · have h1 := h.right
    have h2 : t'.leaves = _ := ht.right
    rw [aotOf_leaves] at h1 ⊢
    rw [List.flatMap_append, List.flatMap_singleton, h1, h2, List.map_append]

/-! ### the same run on another text -/

/-- a step that does not look behind the next character -/
theorem local_run {α : Type} {p : P α} (hR : ∀ t t' a' l u e a, Rel t t' a' l False p p u e a) (hm : Mono p) {R e : Str} {a : List Key} {x : α} {s : St}
    (h : p ⟨R, e, a, []⟩ = .ok x s) (hl : s.loss = []) (ha : s.aot = a) {R' : Str} (hh : R'.head? = s.rest.head?) :
    ∃ u, R = u ++ s.rest ∧ p ⟨u ++ R', e, a, []⟩ = .ok x ⟨R', s.ext, a, []⟩ := by
  obtain ⟨u, hu⟩ := (hm _ _ _ h).1
  have hu : u ++ s.rest = R := hu
  refine ⟨u, hu.symm, ?_⟩
  rcases s with ⟨r1, e1, a1, l1⟩
  simp only at hl ha hh hu
  subst hl ha
  rcases r1 with _ | ⟨c, t⟩
  · have : R' = [] := by
      rcases R' with _ | ⟨d, R'⟩
      · rfl
      · cases hh
    subst this
    rw [hu]; exact h
  · obtain ⟨t', rfl⟩ : ∃ t', R' = c :: t' := by
      rcases R' with _ | ⟨d, R'⟩
      · cases hh
      · cases hh; exact ⟨_, rfl⟩
    have h' : p ⟨(u ++ [c]) ++ t, e, a1, []⟩ = .ok x ⟨c :: t, e1, a1, []⟩ := by
      rw [List.append_assoc]
      show p ⟨u ++ c :: t, e, a1, []⟩ = _
      rw [hu]; exact h
    obtain ⟨w, hw, h2⟩ := hR t t' a1 [] (u ++ [c]) e a1 x _ h' rfl (by simp) (.inr (by simp))
    have hw1 : w = [c] := by
      have : [c] ++ t = w ++ t := hw
      exact (List.append_cancel_right this).symm
    subst hw1
    rw [List.append_assoc] at h2
    exact h2

theorem head_append {u R R' : Str} (h : R'.head? = R.head?) : (u ++ R').head? = (u ++ R).head? := by
  cases u with
  | nil => exact h
  | cons => rfl

theorem nil_of_head {R R' : Str} (h : R'.head? = R.head?) : R' = [] ↔ R = [] := by
  cases R <;> cases R' <;> simp_all

theorem cur_of_head {R R' e e' : Str} {a a' : List Key} {l l' : List Loss} (h : R'.head? = R.head?) : (St.mk R' e' a' l').cur = (St.mk R e a l).cur := by
  cases R <;> cases R' <;> simp_all [St.cur]

/-- the text that follows may be `R'` as well: the next character is the same, and the next header -/
structure Meet (s : St) (R' : Str) : Prop where
  head : R'.head? = s.rest.head?
  peek : ∀ a pk, peekTable ⟨s.rest, s.ext, a, []⟩ = .ok pk ⟨s.rest, s.ext, a, []⟩ → peekTable ⟨R', s.ext, a, []⟩ = .ok pk ⟨R', s.ext, a, []⟩

/-- the end of the other run -/
structure Halts (s s' : St) (R' : Str) : Prop where
  rest : s'.rest = R'
  aot : s'.aot = s.aot
  loss : s'.loss = []
  ext : s.rest ≠ [] → s'.ext = s.ext

/-- a header read from another text -/
theorem header_run {R e : Str} {a : List Key} {h : Header} {s : St} (hh : parseHeader ⟨R, e, a, []⟩ = .ok h s) (hl : s.loss = []) (ha : s.aot = a)
    {R1 : Str} (hR : R1.head? = s.rest.head?) :
    ∃ R', Meet ⟨R, e, a, []⟩ R' ∧ parseHeader ⟨R', e, a, []⟩ = .ok h ⟨R1, s.ext, a, []⟩ := by
  have hm : Mono parseHeader := mono_keeps parseHeader_keeps
  obtain ⟨u, hu, h1⟩ := local_run (fun _ _ _ _ _ _ _ => Rel.parseHeader) hm hh hl ha hR
  refine ⟨u ++ R1, ⟨?_, ?_⟩, h1⟩
  · show (u ++ R1).head? = R.head?
    rw [hu]; exact head_append hR
  · intro a2 pk hpk
    show peekTable ⟨u ++ R1, e, a2, []⟩ = _
    obtain ⟨pk1, s2, g1, g2, g3⟩ := header_peek hh
    have g4 := peek_ok g1
    have hpk : peekTable ⟨R, e, a2, []⟩ = .ok pk ⟨R, e, a2, []⟩ := hpk
    have f1 := framed_peekTable R e a []
    have f2 := framed_peekTable R e a2 []
    rw [g4] at f1
    rw [hpk] at f2
    have hpk2 : pk1 = pk := by
      rcases hx : peekTable ⟨R, e, [], []⟩ with ⟨y, sy⟩ | ⟨y, sy⟩ <;> rw [hx] at f1 f2
      · exact (Res.ok.inj f1).1.trans (Res.ok.inj f2).1.symm
      · cases f1
    subst hpk2
    rcases s2 with ⟨r2, e2, a3, l2⟩
    have hl2 : l2 = [] := loss_nil g3 hl
    subst hl2
    by_cases hs : s.rest = []
    · have : R1 = [] := (nil_of_head hR).2 hs
      rw [this, ← hs, ← hu]; exact hpk
    · obtain ⟨c, t, ht⟩ := List.exists_cons_of_ne_nil hs
      obtain ⟨t', ht'⟩ : ∃ t', R1 = c :: t' := by
        rw [ht] at hR
        rcases R1 with _ | ⟨d, R'⟩
        · cases hR
        · cases hR; exact ⟨_, rfl⟩
      have g1' : peekInner ⟨(u ++ [c]) ++ t, e, a, []⟩ = .ok pk1 ⟨r2, e2, a3, []⟩ := by
        rw [List.append_assoc]
        show peekInner ⟨u ++ c :: t, e, a, []⟩ = _
        rw [← ht, ← hu]; exact g1
      have hlen : t.length < r2.length := by
        rw [ht] at g2
        simp only [List.length_cons] at g2
        omega
      obtain ⟨w, hw, h2⟩ := (Rel.peekInner (t := t) (t' := t') (a' := a2) (l := []) (u := u ++ [c]) (e := e) (a := a)) pk1 _ g1' rfl
        (Nat.le_of_lt hlen) (.inr hlen)
      have := peek_ok h2
      rw [ht']
      rw [List.append_assoc] at this
      exact this

end Tomlkit
