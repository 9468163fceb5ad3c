import Verif.Proofs.Means
import Verif.Proofs.Build
/-!
# Appending a value with a dotted key while a text is read
-/
namespace Tomlkit
open _root_.Spec Tomlkit.Spec

variable {M : PyVal → Item → Prop}

theorem dottedChain_ent {v : Item} {w : PyVal} (hw : M w v) (hv : v.isTableLike = false) (sep : Str) : ∀ (r : List SKey) (nm : Option Str), r ≠ [] →
    ∃ t a i, dottedChain nm r sep v = some t ∧ t.superFlag = some true ∧ t.isAot = false ∧ t.name = nm ∧ t.cont.body = [.mk (some a) i] ∧
      t.cont.map = [(a.key, [0])] ∧ t.cont.dict = [a.key] ∧ t.trivia.comment = [] ∧ DotEnt M (r.map SKey.key) w (.mk (some a) i)
  | [], _, h => absurd rfl h
  | [k], nm, _ => ⟨_, { k with sep := sep }, v, rfl, rfl, rfl, rfl, rfl, rfl, rfl, rfl, DotEnt.leaf (k := { k with sep := sep }) hw hv⟩
  | k :: k2 :: r, nm, _ => by
    obtain ⟨t, a, i, h1, h2, h3, h4, h5, h6, h7, _, h8⟩ := dottedChain_ent hw hv sep (k2 :: r) (some k.key) (by simp)
    refine ⟨dottedTable { k with dotted := true } (.table t) nm, { k with dotted := true }, .table t, ?_, rfl, rfl, rfl, rfl, rfl, rfl, rfl, ?_⟩
    · rw [dottedChain]
      · rw [h1]; rfl
      · simp
    · exact DotEnt.deeper (k := { k with dotted := true }) rfl h2 h3 (by rw [h4]; rfl) h5 h6 h7 h8

theorem DotIdx.depth {c : Cont} {L : List (List Str × PyVal)} (h : DotIdx M c L) : ∀ q ∈ L, q.1.length ≤ c.size := by
  intro q hq
  obtain ⟨e, he, h1⟩ := h.ents.depth q hq
  have := size_mem he
  rcases c with ⟨b, m, d, p, tk⟩
  rw [Cont.size]
  simp only [Cont.body_mk] at this
  omega

theorem named_plain {v : Item} (k : SKey) (h : v.isTableLike = false) : named k v = v := by
  unfold named
  rw [h]; rfl

theorem under_of_head {k : Str} {L : List (List Str × PyVal)} {w : PyVal} (h : Apart (L ++ [([k], w)])) : under k L = [] := by
  rw [List.eq_nil_iff_forall_not_mem]
  intro q hq
  have := (List.pairwise_append.1 h.2).2.2 _ (mem_under.1 hq) ([k], w) (by simp)
  exact this.2 (List.cons_prefix_cons.2 ⟨rfl, List.nil_prefix⟩)

/-- a value with a key of any number of parts -/
theorem dot_append {c : Cont} {L : List (List Str × PyVal)} (h : DotBody M c L) {key : Key} {p : List Str} (hp : key.parts.map SKey.key = p) {i : Item} {w : PyVal}
    (hw : M w i) (hi : i.isTableLike = false) (hL : Apart (L ++ [(p, w)])) :
    ∃ c', (∀ val, Cont.append val c (some key) i = .ok (c', false)) ∧ DotBody M c' (L ++ [(p, w)]) := by
  have hdep := h.toDotIdx.depth
  subst hp
  rcases hparts : key.parts with _ | ⟨k, _ | ⟨k2, r⟩⟩
  · exact absurd (by rw [hparts]; rfl) (hL.1 _ (List.mem_append_right _ (List.mem_singleton.2 rfl)))
  · rw [hparts] at hL
    have hs : ∀ val, Cont.append val c (some key) i = Cont.append val c (some (.single k)) i := by
      intro val
      unfold Cont.append
      dsimp only
      rw [hparts]
      rfl
    have ha : mapGet k.key c.map = none := by
      have := h.ents.spots (k := k.key)
      rw [under_of_head hL, List.length_nil, List.length_eq_zero_iff] at this
      rw [h.index, this]
    obtain ⟨c', h1, h2, _⟩ := dot_push (dot_has (c.size + 1)) h (named_plain k hi) (DotEnt.leaf hw hi) hL (fun q hq => by
      rcases List.mem_append.1 hq with hq | hq
      · have := hdep q hq; omega
      · rw [List.mem_singleton] at hq; subst hq; simp) (n := fuelFor c i) (by unfold fuelFor; omega) false true
    refine ⟨c', fun val => ?_, h2⟩
    rw [hs, append_new (prepare_plain hi) ha, ← append_new (validate := true) (prepare_plain hi) ha]
    exact h1
  · rw [hparts] at hL
    obtain ⟨t, a, j, h1, h2, h3, h4, h5, h6, h7, _, h8⟩ := dottedChain_ent hw hi key.sep (k2 :: r) none (by simp)
    obtain ⟨t', e0, g2, g3, g4, g5, g6, g7⟩ : ∃ t', named { k with dotted := true } (.table t) = .table t' ∧ t'.superFlag = some true ∧ t'.isAot = false ∧
        t'.name.isSome = true ∧ t'.cont.body = [.mk (some a) j] ∧ t'.cont.map = [(a.key, [0])] ∧ t'.cont.dict = [a.key] := by
      rcases t with ⟨tc, tr, ia, sf, nm, dn⟩
      simp only [Tbl.name] at h4
      subst h4
      exact ⟨_, rfl, h2, h3, rfl, h5, h6, h7⟩
    have he : DotEnt M (k.key :: (k2 :: r).map SKey.key) w (.mk (some { k with dotted := true }) (.table t')) :=
      DotEnt.deeper (k := { k with dotted := true }) rfl g2 g3 g4 g5 g6 g7 h8
    have hsz := h8.depth
    have htsz : ((k2 :: r).map SKey.key).length + 2 ≤ t.size := by
      rcases t with ⟨⟨b, m, d, ps, tk⟩, tr, ia, sf, nm, dn⟩
      simp only [Tbl.cont, Cont.body_mk] at h5
      subst h5
      rw [Tbl.size, Cont.size]
      simp only [List.entriesSize]
      omega
    obtain ⟨c', q1, q2, _⟩ := dot_push (dot_has (c.size + t.size)) h e0 he hL (fun q hq => by
      rcases List.mem_append.1 hq with hq | hq
      · have := hdep q hq; omega
      · rw [List.mem_singleton] at hq; subst hq; simp at htsz ⊢; omega) (n := fuelFor c (.table t)) (by unfold fuelFor; rw [Item.size]; omega) false true
    refine ⟨c', fun val => ?_, q2⟩
    unfold Cont.append
    dsimp only
    rw [hparts]
    dsimp only
    rw [hi, h1]
    exact q1

end Tomlkit
