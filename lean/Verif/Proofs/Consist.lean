import Verif.Proofs.Tables
import Verif.Spec.Containers
/-!
# The consistency of the proofs and that of the specification
-/
namespace Tomlkit
open Spec

theorem holdsAt_iff (c : Cont) (i : Nat) (k : Str) (b : Bool) :
    (∃ v, HoldsAt c i k v ∧ v.isTable = b) ↔ (c.body.map Entry.shape)[i]? = some (some k, b) := by
  rw [List.getElem?_map]
  constructor
  · rintro ⟨v, ⟨key, h1, h2⟩, h3⟩
    rw [h1]; simp [h2, h3]
  · intro h
    rcases hb : c.body[i]? with _ | ⟨_ | key, v⟩ <;> rw [hb] at h
    · cases h
    · simp at h
    · simp at h
      exact ⟨v, ⟨key, hb, h.1⟩, h.2⟩

theorem holdsAt_name (c : Cont) (i : Nat) (k : Str) :
    (∃ v, HoldsAt c i k v) ↔ ((c.body.map Entry.shape).map (·.1))[i]? = some (some k) := by
  rw [shape_names, List.getElem?_map]
  constructor
  · rintro ⟨v, ⟨key, h1, h2⟩⟩
    rw [h1]; simp [h2]
  · intro h
    rcases hb : c.body[i]? with _ | ⟨_ | key, v⟩ <;> rw [hb] at h
    · cases h
    · simp at h
    · simp at h
      exact ⟨v, ⟨key, hb, h⟩⟩

theorem consistent_of_WF {c : Cont} (h : c.WF) : Consistent c := by
  have hreach : ∀ i k v, HoldsAt c i k v → ∃ is, mapGet k c.map = some is ∧ i ∈ is := fun i k v hv =>
    (h.idx.pos k i).1 ((holdsAt_name c i k).1 ⟨v, hv⟩)
  refine ⟨?_, hreach, ⟨h.idx.nodup, h.idx.ok⟩, ⟨h.dictNodup, ?_⟩, ?_⟩
  · intro k is hk i hi
    exact (holdsAt_name c i k).2 (h.idx.at hk hi)
  · intro k
    rw [h.dictMem]
    constructor
    · intro hs
      obtain ⟨is, hk⟩ := Option.isSome_iff_exists.1 hs
      obtain ⟨hne, _⟩ := h.idx.ok k is hk
      rcases is with _ | ⟨i, r⟩
      · exact absurd rfl hne
      · obtain ⟨v, hv⟩ := (holdsAt_name c i k).2 (h.idx.at hk (List.mem_cons_self ..))
        exact ⟨i, v, hv⟩
    · rintro ⟨i, v, hv⟩
      obtain ⟨is, hk, _⟩ := hreach i k v hv
      rw [hk]; rfl
  · intro i j k v w hv hw hij
    obtain ⟨is, hk, hi⟩ := hreach i k v hv
    obtain ⟨is', hk', hj⟩ := hreach j k w hw
    rw [hk] at hk'; cases hk'
    have hlen : 1 < is.length := by
      rcases is with _ | ⟨a, _ | ⟨b, r⟩⟩
      · cases hi
      · rw [List.mem_singleton] at hi hj; exact absurd (hi.trans hj.symm) hij
      · simp
    have h1 := h.multi k is hk hlen i hi
    have h2 := h.multi k is hk hlen j hj
    obtain ⟨key, hb, hkk⟩ := hv
    obtain ⟨key', hb', hkk'⟩ := hw
    rw [List.getElem?_map, hb] at h1
    rw [List.getElem?_map, hb'] at h2
    simp at h1 h2
    exact ⟨h1.2, h2.2⟩

theorem WF_of_consistent {c : Cont} (h : Consistent c) : c.WF := by
  refine ⟨⟨h.once.1, ?_, h.once.2⟩, h.keys.1, ?_, ?_⟩
  · intro k i
    rw [← holdsAt_name]
    constructor
    · rintro ⟨v, hv⟩; exact h.reachable i k v hv
    · rintro ⟨is, hk, hi⟩; exact h.cached k is hk i hi
  · intro k
    rw [h.keys.2]
    constructor
    · rintro ⟨i, v, hv⟩
      obtain ⟨is, hk, _⟩ := h.reachable i k v hv
      rw [hk]; rfl
    · intro hs
      obtain ⟨is, hk⟩ := Option.isSome_iff_exists.1 hs
      obtain ⟨hne, _⟩ := h.once.2 k is hk
      rcases is with _ | ⟨i, r⟩
      · exact absurd rfl hne
      · obtain ⟨v, hv⟩ := h.cached k _ hk i (List.mem_cons_self ..)
        exact ⟨i, v, hv⟩
  · intro k is hk hl i hi
    obtain ⟨v, hv⟩ := h.cached k is hk i hi
    have : ∃ j ∈ is, j ≠ i := by
      have hnd := (h.once.2 k is hk).2
      rcases is with _ | ⟨a, _ | ⟨b, r⟩⟩
      · simp at hl
      · simp at hl
      · by_cases hai : a = i
        · refine ⟨b, by simp, ?_⟩
          rintro rfl
          subst hai
          simp at hnd
        · exact ⟨a, by simp, hai⟩
    obtain ⟨j, hj, hji⟩ := this
    obtain ⟨w, hw⟩ := h.cached k is hk j hj
    obtain ⟨ht, _⟩ := h.parts i j k v w hv hw (Ne.symm hji)
    exact (holdsAt_iff c i k true).1 ⟨v, hv, ht⟩

theorem consistent_iff (c : Cont) : Consistent c ↔ c.WF := ⟨WF_of_consistent, consistent_of_WF⟩

section
variable {W W' : Cont → Prop}
mutual
theorem Item.every (hW : ∀ c, W c → W' c) : (v : Item) → v.Good W → EveryItem W' v
  | .array gs _ _, h => groups_every hW gs h
  | .inline c _ _, h => Cont.every hW c h
  | .table tb, h => Tbl.every hW tb h
  | .aot ts _ _ _, h => tables_every hW ts h
  | .ws .., _ | .comment .., _ | .integer .., _ | .float .., _ | .bool .., _ | .datetime .., _ | .date .., _
  | .time .., _ | .str .., _ | .null .., _ => trivial
theorem groups_every (hW : ∀ c, W c → W' c) : (gs : List AGroup) → goodGroups W gs → EveryGroups W' gs
  | [], _ => trivial
  | g :: r, h => ⟨AGroup.every hW g h.1, groups_every hW r h.2⟩
theorem AGroup.every (hW : ∀ c, W c → W' c) : (g : AGroup) → g.Good W → EveryGroup W' g
  | .noval .., _ => trivial
  | .val _ v _ _, h => Item.every hW v h
theorem Tbl.every (hW : ∀ c, W c → W' c) : (t : Tbl) → t.Good W → EveryTbl W' t
  | .mk c _ _ _ _ _, h => Cont.every hW c h
theorem Cont.every (hW : ∀ c, W c → W' c) : (c : Cont) → c.Good W → Every W' c
  | .mk b _ _ _ _, h => ⟨hW _ h.1, entries_every hW b h.2⟩
theorem entries_every (hW : ∀ c, W c → W' c) : (b : List Entry) → goodEntries W b → EveryEntries W' b
  | [], _ => trivial
  | e :: r, h => ⟨Entry.every hW e h.1, entries_every hW r h.2⟩
theorem Entry.every (hW : ∀ c, W c → W' c) : (e : Entry) → e.Good W → EveryEntry W' e
  | .mk _ v, h => Item.every hW v h
theorem tables_every (hW : ∀ c, W c → W' c) : (ts : List Tbl) → goodTables W ts → EveryTables W' ts
  | [], _ => trivial
  | t :: r, h => ⟨Tbl.every hW t h.1, tables_every hW r h.2⟩
end
mutual
theorem Item.of_every (hW : ∀ c, W c → W' c) : (v : Item) → EveryItem W v → v.Good W'
  | .array gs _ _, h => groups_of_every hW gs h
  | .inline c _ _, h => Cont.of_every hW c h
  | .table tb, h => Tbl.of_every hW tb h
  | .aot ts _ _ _, h => tables_of_every hW ts h
  | .ws .., _ | .comment .., _ | .integer .., _ | .float .., _ | .bool .., _ | .datetime .., _ | .date .., _
  | .time .., _ | .str .., _ | .null .., _ => trivial
theorem groups_of_every (hW : ∀ c, W c → W' c) : (gs : List AGroup) → EveryGroups W gs → goodGroups W' gs
  | [], _ => trivial
  | g :: r, h => ⟨AGroup.of_every hW g h.1, groups_of_every hW r h.2⟩
theorem AGroup.of_every (hW : ∀ c, W c → W' c) : (g : AGroup) → EveryGroup W g → g.Good W'
  | .noval .., _ => trivial
  | .val _ v _ _, h => Item.of_every hW v h
theorem Tbl.of_every (hW : ∀ c, W c → W' c) : (t : Tbl) → EveryTbl W t → t.Good W'
  | .mk c _ _ _ _ _, h => Cont.of_every hW c h
theorem Cont.of_every (hW : ∀ c, W c → W' c) : (c : Cont) → Every W c → c.Good W'
  | .mk b _ _ _ _, h => ⟨hW _ h.1, entries_of_every hW b h.2⟩
theorem entries_of_every (hW : ∀ c, W c → W' c) : (b : List Entry) → EveryEntries W b → goodEntries W' b
  | [], _ => trivial
  | e :: r, h => ⟨Entry.of_every hW e h.1, entries_of_every hW r h.2⟩
theorem Entry.of_every (hW : ∀ c, W c → W' c) : (e : Entry) → EveryEntry W e → e.Good W'
  | .mk _ v, h => Item.of_every hW v h
theorem tables_of_every (hW : ∀ c, W c → W' c) : (ts : List Tbl) → EveryTables W ts → goodTables W' ts
  | [], _ => trivial
  | t :: r, h => ⟨Tbl.of_every hW t h.1, tables_of_every hW r h.2⟩
end
end

theorem every_iff (c : Cont) : Every Consistent c ↔ c.Good Cont.WF :=
  ⟨Cont.of_every (fun _ => WF_of_consistent) c, Cont.every (fun _ => consistent_of_WF) c⟩
theorem everyItem_iff (v : Item) : EveryItem Consistent v ↔ v.Good Cont.WF :=
  ⟨Item.of_every (fun _ => WF_of_consistent) v, Item.every (fun _ => consistent_of_WF) v⟩

theorem good_WF_of_PW {c : Cont} (h : c.Good PW) : c.Good Cont.WF :=
  (every_iff c).1 (Cont.every (fun _ h => consistent_of_WF h.wf) c h)

/-- everything about `parse` at once -/
theorem parse_all (s : Str) : (∀ c, parse s = .ok c → c.Good Cont.WF) ∧
    ∀ e, parse s = .error e → OkErr s e := by
  have hd : P.wp (parseDoc s) (fun c _ => c.Good Cont.WF) (ErrT (.init s)) (.init s) := by
    have h := Adv.refl (St.init s)
    unfold parseDoc
    refine wp_bind (h.callT (topItems_does _ _ _ ?_ (Cont.good_empty closed_PW)) fun c s1 h hc => ?_)
    · simp [St.init, docFuel]; omega
    · refine wp_bind (h.callT (topTables_does _ _ _ ?_ hc) fun c s1 h hc => ?_)
      · have := h.len
        simp [St.init, docFuel] at *; omega
      · refine wp_pure ?_
        exact Cont.stopParsing_good closed_WF (fun hc => hc) c (good_WF_of_PW hc)
  unfold P.wp at hd
  unfold parse parseLog
  rcases hp : parseDoc s (.init s) with ⟨c, st⟩ | ⟨e, st⟩ <;> rw [hp] at hd <;> simp only at hd
  · exact ⟨(by intro c' hc; cases hc; exact hd), (by intro e he; cases he)⟩
  · exact ⟨(by intro c' hc; cases hc), (by intro e' he; cases he; exact hd)⟩

end Tomlkit
