import Verif.Proofs.Wrap
import Verif.Proofs.Clean
/-!
# A deep copy holds the same data
-/
namespace Tomlkit
open _root_.Spec Tomlkit.Spec

theorem holdsAll_isData : ∀ {l : List PyVal} {is : List Item}, HoldsAll l is → ∀ i ∈ is, i.isData = true
  | [], _, h => by unfold HoldsAll at h; subst h; intro i hi; cases hi
  | _ :: r, _, h => by
    unfold HoldsAll at h
    obtain ⟨i, is', rfl, h1, h2⟩ := h
    intro j hj
    rcases List.mem_cons.1 hj with rfl | hj
    · obtain ⟨a, b, c⟩ := holds_kind h1
      simp [Item.isData, a, b, c]
    · exact holdsAll_isData h2 j hj

theorem deepCopyGroups_eq (gs : List AGroup) : gs.deepCopyGroups = gs.map AGroup.deepCopy := by
  induction gs with
  | nil => rfl
  | cons g r ih => unfold List.deepCopyGroups; rw [ih]; rfl

theorem deepCopyTables_eq (ts : List Tbl) : ts.deepCopyTables = ts.map Tbl.deepCopy := by
  induction ts with
  | nil => rfl
  | cons g r ih => unfold List.deepCopyTables; rw [ih]; rfl

theorem isData_deepCopy (v : Item) : v.deepCopy.isData = v.isData := by
  cases v <;> rfl

theorem groupItems_data : ∀ {gs : List AGroup}, (∀ i ∈ printed gs, i.isData = true) → (groupItems (gs.map AGroup.deepCopy)).filter Item.isData =
    (printed gs).map Item.deepCopy
  | [], _ => rfl
  | g :: r, h => by
    have ih := groupItems_data (gs := r) fun i hi => h i (by
      rw [printed_cons]; exact List.mem_append_right _ hi)
    have hws : ∀ o : Option Str, List.filter Item.isData (o.map fun s => Item.ws s false).toList = [] := by
      intro o; cases o <;> rfl
    have hcm : ∀ o : Option Trivia, List.filter Item.isData (o.map Item.comment).toList = [] := by
      intro o; cases o <;> rfl
    rw [List.map_cons]
    unfold groupItems at ih ⊢
    rw [List.flatMap_cons, List.filter_append, ih]
    cases g with
    | noval i c m =>
      show List.filter _ (AGroup.items (.noval i c m)) ++ _ = _
      simp only [AGroup.items, List.filter_append, hws, hcm, printed]
      rfl
    | val i v c m =>
      show List.filter _ (AGroup.items (.val i v.deepCopy c m)) ++ _ = _
      simp only [AGroup.items, List.filter_append, hws, hcm, printed, List.nil_append, List.append_nil]
      cases hn : v.isNull with
      | true =>
        have : v.deepCopy.isData = false := by rw [isData_deepCopy]; simp [Item.isData, hn]
        simp [this]
      | false =>
        have hd : v.isData = true := h v (by simp [printed, hn])
        have : v.deepCopy.isData = true := by rw [isData_deepCopy]; exact hd
        simp [this]

theorem Cont.deepCopy_item {c : Cont} {k : Str} {i : Item} (h : c.item k = .ok (.inl i)) : c.deepCopy.item k = .ok (.inl i.deepCopy) := by
  rw [item_single] at h ⊢
  obtain ⟨n, e, h1, h2, h3⟩ := h
  refine ⟨n, e.deepCopy, ?_, ?_, ?_⟩
  · cases c; exact h1
  · rw [Cont.deepCopy_body, List.getElem?_map, h2]; rfl
  · cases e; simp only [Entry.v] at h3; subst h3; rfl

section
variable {W : Cont → Prop} (hW : ∀ c, W c → c.dict = dictOfBody c.body)
include hW

mutual
theorem holds_deepCopy : ∀ (v : PyVal) {i : Item}, i.Good W → Holds v i → Holds v i.deepCopy
  | .bool _, _, _, h => by unfold Holds at h ⊢; obtain ⟨_, rfl⟩ := h; exact ⟨_, rfl⟩
  | .int _, _, _, h => by unfold Holds at h ⊢; obtain ⟨_, _, rfl⟩ := h; exact ⟨_, _, rfl⟩
  | .str _, _, _, h => by unfold Holds at h ⊢; obtain ⟨_, _, _, rfl⟩ := h; exact ⟨_, _, _, rfl⟩
  | .date _, _, _, h => by unfold Holds at h ⊢; obtain ⟨_, _, rfl⟩ := h; exact ⟨_, _, rfl⟩
  | .time _, _, _, h => by unfold Holds at h ⊢; obtain ⟨_, _, rfl⟩ := h; exact ⟨_, _, rfl⟩
  | .datetime _, _, _, h => by unfold Holds at h ⊢; obtain ⟨_, _, rfl⟩ := h; exact ⟨_, _, rfl⟩
  | .float _, _, _, h => by unfold Holds at h ⊢; obtain ⟨_, _, rfl⟩ := h; exact ⟨_, _, rfl⟩
  | .none, _, _, h => by unfold Holds at h; exact h.elim
  | .list l, i, hg, h => by
    unfold Holds at h ⊢
    rcases h with ⟨gs, t, m, rfl, h⟩ | ⟨ts, t, n, p, rfl, h⟩
    · left
      refine ⟨_, _, _, by unfold Item.deepCopy; rfl, ?_⟩
      unfold groupValues
      rw [printed_groupLoop, deepCopyGroups_eq, groupItems_data (holdsAll_isData h)]
      show HoldsAll l ([] ++ _)
      rw [List.nil_append]
      refine holdsAll_deepCopy l (fun j hj => ?_) h
      unfold Item.Good at hg
      rw [goodGroups_iff] at hg
      clear h
      induction gs with
      | nil => cases hj
      | cons g r ih =>
        cases g with
        | noval => exact ih hj fun g hg' => hg g (by simp [hg'])
        | val a v b c =>
          rw [printed] at hj
          split at hj
          · exact ih hj fun g hg' => hg g (by simp [hg'])
          · rcases List.mem_cons.1 hj with rfl | hj
            · have := hg _ (List.mem_cons_self ..)
              unfold AGroup.Good at this; exact this
            · exact ih hj fun g hg' => hg g (by simp [hg'])
    · right
      refine ⟨_, _, _, _, by unfold Item.deepCopy mkAoT; rfl, ?_⟩
      rw [deepCopyTables_eq]
      have h1 : HoldsAll l ((ts.map Tbl.deepCopy).map Item.table) := by
        have := holdsAll_deepCopy l (is := ts.map Item.table) (fun j hj => by
          obtain ⟨t, ht, rfl⟩ := List.mem_map.1 hj
          unfold Item.Good at hg ⊢
          exact (goodTables_iff ts).1 hg t ht) h
        rw [List.map_map] at this ⊢
        have e : (Item.deepCopy ∘ Item.table) = (Item.table ∘ Tbl.deepCopy) := by funext t; rfl
        rwa [e] at this
      have := aotFold_holds { trail := [] } p (ts.map Tbl.deepCopy) [] l [] h1 (by unfold HoldsAll; rfl)
      simpa using this
  | .dict l, i, hg, h => by
    unfold Holds at h ⊢
    obtain ⟨c, hc, h1, h2⟩ := h
    have hgc : c.Good W := by
      cases i <;> simp only [dictCont, Option.some.injEq, reduceCtorEq] at hc
      · subst hc; unfold Item.Good at hg; exact hg
      · subst hc; unfold Item.Good at hg
        exact (Tbl.good_iff _).1 hg
    refine ⟨c.deepCopy, ?_, ?_, ?_⟩
    · cases i <;> simp only [dictCont, Option.some.injEq, reduceCtorEq] at hc
      · subst hc; unfold Item.deepCopy; rfl
      · rename_i tb; subst hc; unfold Item.deepCopy; cases tb; rfl
    · rw [← h1]
      have := hW c ((Cont.good_iff c).1 hgc).1
      rw [this]
      cases c; rfl
    · exact holdsIn_deepCopy l hgc h2
termination_by v => sizeOf v
theorem holdsAll_deepCopy : ∀ (l : List PyVal) {is : List Item}, (∀ i ∈ is, i.Good W) → HoldsAll l is → HoldsAll l (is.map Item.deepCopy)
  | [], _, _, h => by unfold HoldsAll at h ⊢; subst h; rfl
  | v :: r, _, hg, h => by
    unfold HoldsAll at h ⊢
    obtain ⟨i, is', rfl, h1, h2⟩ := h
    exact ⟨i.deepCopy, is'.map Item.deepCopy, rfl, holds_deepCopy v (hg i (by simp)) h1,
      holdsAll_deepCopy r (fun j hj => hg j (by simp [hj])) h2⟩
termination_by l => sizeOf l
theorem holdsIn_deepCopy : ∀ (l : List PyPair) {c : Cont}, c.Good W → HoldsIn l c → HoldsIn l c.deepCopy
  | [], _, _, h => by unfold HoldsIn; trivial
  | .mk k v :: r, c, hg, h => by
    unfold HoldsIn HoldsPair at h ⊢
    obtain ⟨⟨i, h1, h2⟩, h3⟩ := h
    refine ⟨⟨i.deepCopy, Cont.deepCopy_item h1, holds_deepCopy v ?_ h2⟩, holdsIn_deepCopy r hg h3⟩
    obtain ⟨n, e, _, g2, g3⟩ := item_single.1 h1
    rw [← g3]
    exact ((Cont.good_iff c).1 hg).2 e (List.mem_of_getElem? g2)
termination_by l => sizeOf l
end
end

end Tomlkit
