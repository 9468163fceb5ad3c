import Verif.Proofs.ParsedFlat
import Verif.Proofs.FlatRows
import Verif.Proofs.UnwrapMore
/-!
# The lines of a document that was read
-/
namespace Tomlkit
open _root_.Spec Tomlkit.Spec

theorem sameIn_weaken : ∀ {l m m' : List PyPair}, SameIn l m → (∀ p ∈ m, p ∈ m') → SameIn l m' := by
  intro l
  induction l with
  | nil => intro m m' _ _; unfold SameIn; trivial
  | cons p r ih =>
    intro m m' h hm
    unfold SameIn at h ⊢
    refine ⟨?_, ih h.2 hm⟩
    obtain ⟨k, v⟩ := p
    have h1 := h.1
    unfold SamePair at h1 ⊢
    obtain ⟨w, h2, h3⟩ := h1
    exact ⟨w, hm _ h2, h3⟩

mutual
theorem same_refl : (v : PyVal) → Same v v
  | .bool _ | .int _ | .str _ | .date _ | .time _ | .datetime _ | .float _ | .none => by unfold Same; rfl
  | .list l => by unfold Same; exact ⟨l, rfl, sameAll_refl l⟩
  | .dict l => by unfold Same; exact ⟨l, rfl, rfl, sameIn_refl l⟩
termination_by v => sizeOf v
theorem sameAll_refl : (l : List PyVal) → SameAll l l
  | [] => by unfold SameAll; rfl
  | v :: r => by unfold SameAll; exact ⟨v, r, rfl, same_refl v, sameAll_refl r⟩
termination_by l => sizeOf l
theorem sameIn_refl : (l : List PyPair) → SameIn l l
  | [] => by unfold SameIn; trivial
  | .mk k v :: r => by
    unfold SameIn
    refine ⟨?_, sameIn_weaken (sameIn_refl r) fun p hp => by simp [hp]⟩
    unfold SamePair
    exact ⟨v, by simp, same_refl v⟩
termination_by l => sizeOf l
end

theorem bare_cmt {t : Trivia} (h : Cmt t.comment) : bareComment t = t.comment := by
  have := cmt_bare Spaces.nil h
  simpa [bareComment] using this

/-- the lines of the document are its entries -/
theorem _root_.Tomlkit.Spec.LinesOf.rows {es : List Entry} {ls : List Line} (h : LinesOf es ls) (hc : ∀ e ∈ es, Cmt e.v.trivia.comment) : Rows False es ls := by
  induction h with
  | nil => exact .nil
  | @blank v es ls hv _ ih =>
    refine .none ?_ (ih fun e he => hc e (by simp [he]))
    have hb : bareComment v.trivia = [] := by unfold bareComment; rw [hv]; rfl
    unfold commentOf
    rw [if_pos hb]
  | @comment t es ls ht _ ih =>
    refine .cmt ⟨?_, ?_, fun h => h.elim⟩ (ih fun e he => hc e (by simp [he]))
    · exact bare_cmt (hc (.mk none (.comment t)) (by simp))
    · intro h0; exact ht (Option.some.inj h0)
  | @item k v w es ls hw _ ih =>
    refine .kv ⟨w, hw.imp fun n0 h0 n hn => Item.unwrap_more h0 hn, same_refl w⟩ ⟨?_, ?_, fun h => h.elim⟩ (ih fun e he => hc e (by simp [he]))
    · rw [bare_cmt (show Cmt v.trivia.comment from hc (.mk (some k) v) (by simp))]
      split
      · assumption
      · rfl
    · split
      · simp
      · rename_i h0
        intro h1; exact h0 (Option.some.inj h1)

/-- a document that was read, and its lines -/
theorem parsed_ed {s : Str} {doc : Cont} (h : parseLog s = .ok (doc, [])) (hf : Flat doc) (hn : NoLoneCr s)
    (hw : ∀ e ∈ doc.body, ∀ c ∈ e.v.trivia.commentWs, isSpaces c = true) {ls : List Line} (hl : LinesOf doc.body ls) :
    Ed False (s = [] ∨ s.getLast? = some 10) doc ls := by
  obtain ⟨h1, h2, h3⟩ := parsed_flat h hf hn hw
  exact ⟨h1, h2, hl.rows h3⟩

end Tomlkit
