import Verif.Proofs.WithinDoc
/-!
# The data of a document with other lines in one of its tables
-/
namespace Tomlkit
open _root_.Spec Tomlkit.Spec

theorem mkProxy_setE {c : Cont} {i : Nat} {e : Entry} {is : List Nat} (h : i ∉ is) (n : Nat) : Cont.mkProxy n (c.setE i e) is = Cont.mkProxy n c is := by
  rcases n with _ | n
  · rw [Cont.mkProxy, Cont.mkProxy]
  rw [Cont.mkProxy, Cont.mkProxy]
  rw [Cont.setE_body, tablesAt_set _ _ h]

/-- what another key reads does not depend on the contents of the table -/
theorem unwrapKey_setE {d : Cont} {k : Str} {i : Nat} {key : Option SKey} {T : Tbl} (hg : d.Good Cont.WF) (ho : OneTable d k i key T) {k' : Str} (hk : k' ≠ k) (C : Cont) (n : Nat) :
    unwrapKey n (d.setE i (.mk key (.table (T.setCont C)))) k' = unwrapKey n d k' := by
  rcases n with _ | n
  · rw [unwrapKey, unwrapKey]
  have hw := ((Cont.good_iff _).1 hg).1
  have hoff := off_of hw ho.1 (i := i) (by simp) hk
  rw [unwrapKey, unwrapKey]
  unfold Cont.item
  rw [Cont.setE_map]
  rcases hm : mapGet k' d.map with _ | is
  · rfl
  have hi := hoff is hm
  -- the same document with an empty table
  have hg0 : (d.setE i (.mk key (.table (T.setCont (.empty true))))).Good Cont.WF := by
    refine write_deep hg ho.2 rfl ?_
    cases T
    exact Cont.good_empty closed_WF
  have hsz : ∀ C, (Item.table (T.setCont C)).size = 1 + (1 + C.size) := fun C => by cases T; rfl
  have hle : ∀ C, fuelFor (d.setE i (.mk key (.table (T.setCont (.empty true))))) (.null {}) ≤ fuelFor (d.setE i (.mk key (.table (T.setCont C)))) (.null {}) := by
    intro C
    have h1 := bsz_set (e := .mk key (.table (T.setCont (.empty true)))) ho.2
    have h2 := bsz_set (e := .mk key (.table (T.setCont C))) ho.2
    have e1 : (Entry.mk key (.table (T.setCont (.empty true)))).v.size = 1 + (1 + (Cont.empty true).size) := hsz _
    have e2 : (Entry.mk key (.table (T.setCont C))).v.size = 1 + (1 + C.size) := hsz _
    have e3 : (Cont.empty true).size = 1 := rfl
    have e4 := C.size_bsz
    unfold fuelFor
    rw [Cont.size_bsz, Cont.size_bsz, Cont.setE_body, Cont.setE_body]
    omega
  have hsame : ∀ C, Cont.mkProxy (fuelFor (d.setE i (.mk key (.table (T.setCont C)))) (.null {})) d is =
      Cont.mkProxy (fuelFor (d.setE i (.mk key (.table (T.setCont (.empty true))))) (.null {})) d is := by
    intro C
    rcases (append_stable _ _ (hle C)).2.2.1 d is with h0 | h0
    · rw [← mkProxy_setE (e := .mk key (.table (T.setCont (.empty true)))) hi] at h0
      exact absurd rfl ((append1_enough _).2.2.1 hg0 (k := k') hm (by unfold fuelFor; omega) h0)
    · exact h0
  have hd : d.setE i (.mk key (.table (T.setCont T.cont))) = d := by
    have : T.setCont T.cont = T := by cases T; rfl
    rw [this]
    unfold Cont.setE
    have hb : d.body.set i (.mk key (.table T)) = d.body := by
      obtain ⟨hlt, hx⟩ := List.getElem?_eq_some_iff.1 ho.2
      rw [← hx, List.set_getElem_self]
    rw [hb]
    cases d; rfl
  have hp : Cont.mkProxy (fuelFor (d.setE i (.mk key (.table (T.setCont C)))) (.null {})) (d.setE i (.mk key (.table (T.setCont C)))) is =
      Cont.mkProxy (fuelFor d (.null {})) d is := by
    rw [mkProxy_setE hi, hsame C]
    have := hsame T.cont
    rw [hd] at this
    exact this.symm
  match is, hm, hi, hp with
  | [], _, _, hp => dsimp only at hp ⊢; rw [hp]
  | [j], _, hi, _ =>
    dsimp only
    rw [Cont.setE_body, List.getElem?_set_ne (fun hx => hi (by simp [hx]))]
    rcases d.body[j]? with _ | e <;> rfl
  | a :: b :: r, _, _, hp => dsimp only at hp ⊢; rw [hp]

theorem oneTable_setE {d : Cont} {k : Str} {i : Nat} {key : Option SKey} {T T' : Tbl} (ho : OneTable d k i key T) : OneTable (d.setE i (.mk key (.table T'))) k i key T' := by
  refine ⟨ho.1, ?_⟩
  rw [Cont.setE_body, List.getElem?_set_self (List.getElem?_eq_some_iff.1 ho.2).1]

theorem unwrapKey_table {d : Cont} {k : Str} {i : Nat} {key : Option SKey} {T : Tbl} (ho : OneTable d k i key T) (n : Nat) :
    unwrapKey (n + 2) d k = (T.cont.unwrap n).map .dict := by
  rw [unwrapKey, item_single.2 ⟨i, _, ho.1, ho.2, rfl⟩]
  cases T
  rfl

theorem setE_setE (d : Cont) (i : Nat) (a b : Entry) : (d.setE i a).setE i b = d.setE i b := by
  unfold Cont.setE
  simp

/-- an edit of a table that is not indented -/
theorem runIn_eq {d : Cont} {k : Str} {i : Nat} {key : Option SKey} {T : Tbl} (ho : OneTable d k i key T) (hs : spaceRun T.trivia.indent = none) {e : Edit}
    (hk : ∀ k', e.key? = some k' → mapGet k' T.cont.map = none ∨ ∃ j, mapGet k' T.cont.map = some [j]) :
    e.runIn d k = (e.run T.cont).map fun c' => d.setE i (.mk key (.table (T.setCont c'))) := by
  have hat : ∀ op, Cont.atPath op [.key k] .doc d = (op.run (.table T.trivia) T.cont).map fun c' => d.setE i (.mk key (.table (T.setCont c'))) := by
    intro op
    rw [Cont.atPath, ho.1]
    dsimp only
    rw [ho.2]
    dsimp only
    rw [Cont.atPath]
    rfl
  have hset : ∀ k' v, (mapGet k' T.cont.map = none ∨ ∃ j, mapGet k' T.cont.map = some [j]) → Cont.setItemIndented T.cont T.trivia.indent k' v = T.cont.setItem k' v := by
    intro k' v h
    unfold Cont.setItemIndented
    obtain ⟨b, hb⟩ : ∃ b, Cont.has (fuelFor T.cont v) T.cont k' = .ok b := by
      rcases h with h | ⟨j, h⟩
      · exact ⟨_, has_absent h⟩
      · exact ⟨_, has_single h⟩
    rw [hb]
    dsimp only
    rcases T.cont.setItem k' v with x | c' <;> dsimp only
    rw [hs]
    split <;> rfl
  have hstr : ∀ k' v, tableAppendStr T.trivia T.cont k' v = (Cont.append true T.cont (some (.single (mkKey k'))) v).map Prod.fst := by
    intro k' v
    unfold tableAppendStr
    rcases Cont.append true T.cont (some (.single (mkKey k'))) v with x | ⟨c', mv⟩ <;> dsimp only
    · rfl
    rw [hs]; rfl
  have hadd : ∀ v, tableAppendKey T.trivia T.cont none v = (Cont.append true T.cont none v).map Prod.fst := by
    intro v
    unfold tableAppendKey
    rcases Cont.append true T.cont none v with x | ⟨c', mv⟩ <;> dsimp only
    · rfl
    show (match spaceRun T.trivia.indent with | none => Except.ok c' | some ind => _) = _
    rw [hs]; rfl
  cases e with
  | set k' w p =>
    unfold Edit.runIn Edit.run
    dsimp only
    rcases w.toItem false p with x | v <;> dsimp only
    · rfl
    · rw [hat]
      unfold Op.run
      dsimp only
      rw [hset k' v (hk k' rfl)]
  | add k' w p =>
    unfold Edit.runIn Edit.run
    dsimp only
    rcases w.toItem false p with x | v <;> dsimp only
    · rfl
    · rw [hat]
      unfold Op.run
      dsimp only
      rw [hstr]
  | remove k' => exact hat _
  | comment s =>
    unfold Edit.runIn Edit.run
    dsimp only
    rw [hat]
    unfold Op.run
    dsimp only
    rw [hadd]
  | nl =>
    unfold Edit.runIn Edit.run
    dsimp only
    rw [hat]
    unfold Op.run
    dsimp only
    rw [hadd]
  | note k' s =>
    unfold Edit.runIn Edit.run noteIn
    dsimp only
    rw [ho.1]
    dsimp only
    unfold tableAt
    rw [ho.2]

theorem docIn_eq {t : Cont} {q z : Prop} (ht : t.WF) (hp : t.parsed = false) (hh : Headed t.body) {k : Str} {i : Nat} {key : Option SKey} (es : List Edit) (he : ∀ e ∈ es, e.Fit)
    (ha : ∀ e ∈ es, ¬ e.addsLine) (hk : ∀ e ∈ es, ∀ k, e.key? = some k → mapGet k t.map = none) : ∀ {d : Cont} {T : Tbl} {c : Cont} {ls : List Line},
    OneTable d k i key T → spaceRun T.trivia.indent = none → Over c t T.cont → Ed q z c ls → docIn d k es = d.setE i (.mk key (.table (T.setCont (docAfter T.cont es)))) := by
  induction es with
  | nil =>
    intro d T c ls ho _ _ _
    have : T.setCont T.cont = T := by cases T; rfl
    show d = d.setE i (.mk key (.table (T.setCont T.cont)))
    rw [this]
    unfold Cont.setE
    have hb : d.body.set i (.mk key (.table T)) = d.body := by
      obtain ⟨hlt, hx⟩ := List.getElem?_eq_some_iff.1 ho.2
      rw [← hx, List.set_getElem_self]
    rw [hb]
    cases d; rfl
  | cons e r ih =>
    intro d T c ls ho hs hO hE
    have ih := @ih (fun x hx => he x (by simp [hx])) (fun x hx => ha x (by simp [hx])) (fun x hx => hk x (by simp [hx]))
    have hrun := runIn_eq ho hs (e := e) fun k' hk' => by
      have h0 := hk e (by simp) k' hk'
      rcases hm : mapGet k' c.map with _ | is
      · left
        rw [hO.below k' hm, h0]; rfl
      · obtain ⟨j, _, _, rfl, _⟩ := single_of_plain hE.doc.wf (flat_holds hE.doc.flat) hm
        exact .inr ⟨j, (hO.line k' _ hm).1⟩
    obtain ⟨c1, hO1, hE1⟩ := Over.after ht hp hh [e] (fun x hx => he x (by simp at hx; simp [hx])) (fun x hx => ha x (by simp at hx; simp [hx]))
      (fun x hx => hk x (by simp at hx; simp [hx])) hO hE
    rw [docIn, docAfter, hrun]
    rw [docAfter] at hO1
    rcases hx : e.run T.cont with x | c' <;> rw [hx] at hO1
    · exact ih ho hs hO hE
    · have htc : (T.setCont c').cont = c' := by cases T; rfl
      have htt : (T.setCont c').trivia = T.trivia := by cases T; rfl
      have := ih (oneTable_setE (T' := T.setCont c') ho) (by rw [htt]; exact hs) (by rw [htc]; exact hO1) hE1
      have hss : ∀ C, (T.setCont c').setCont C = T.setCont C := fun C => by cases T; rfl
      show docIn (d.setE i (.mk key (.table (T.setCont c')))) k r = _
      rw [this, setE_setE, htc, hss]

end Tomlkit
