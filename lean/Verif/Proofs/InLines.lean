import Verif.Proofs.Above
import Verif.Proofs.Prefix
/-!
# The lines of a table

The entries of a table are read as the lines at the top of a document are.
-/
namespace Tomlkit
open _root_.Spec Tomlkit.Spec

theorem append1_val {n : Nat} {c : Cont} {key : Option SKey} {v : Item} (hv : key = none ∨ v.isTableLike = false) :
    Cont.append1 n false false c key v = Cont.append1 n false true c key v := by
  rcases n with _ | n
  · rw [Cont.append1, Cont.append1]
  rw [Cont.append1, Cont.append1]
  rcases key with _ | k
  · rfl
  have hv := hv.resolve_left (by simp)
  rw [prepare_plain hv]
  rcases v with _ | _ | _ | _ | _ | _ | _ | _ | _ | _ | _ | tb | ⟨ts, t, nm, p⟩ | _ <;> first | rfl | cases hv

theorem append_val {c : Cont} {key : Option Key} {v : Item} (hv : key = none ∨ v.isTableLike = false) :
    Cont.append false c key v = Cont.append true c key v := by
  unfold Cont.append
  rcases key with _ | key
  · exact append1_val (.inl rfl)
  have hv := hv.resolve_left (by simp)
  dsimp only
  rcases key.parts with _ | ⟨k, _ | ⟨k2, r⟩⟩
  · rfl
  · exact append1_val (.inr hv)
  · rfl

theorem tblRaw_inv {tb r : Tbl} {key : Option Key} {v : Item} {b : Bool} (h : tb.rawAppend key v = .ok (r, b)) :
    ∃ c, Cont.append false tb.cont key v = .ok (c, b) ∧ r = tb.setCont c ∧
      ∀ k ks, key.map Key.parts = some (k :: ks) → ∃ x, Cont.has (fuelFor c (.null {})) c k.key = .ok x := by
  unfold Tbl.rawAppend at h
  rcases hx : Cont.append false tb.cont key v with er | ⟨c, m1⟩ <;> rw [hx] at h <;> dsimp only at h
  · cases h
  · rcases hk : key.map Key.parts with _ | ⟨_ | ⟨k, ks⟩⟩ <;> rw [hk] at h <;> dsimp only at h
    · cases h
      exact ⟨c, rfl, rfl, fun _ _ h => by cases h⟩
    · cases h
      exact ⟨c, rfl, rfl, fun _ _ h => by cases h⟩
    · rcases hh : Cont.has (fuelFor c (.null {})) c k.key with er | x <;> rw [hh] at h <;> dsimp only at h
      · cases h
      · cases h
        exact ⟨c, rfl, rfl, fun k' ks' h => by cases h; exact ⟨x, hh⟩⟩

theorem tblRaw_run {tb : Tbl} {k : SKey} {v : Item} {c : Cont} {b x : Bool} (h : Cont.append false tb.cont (some (.single k)) v = .ok (c, b))
    (hh : Cont.has (fuelFor c (.null {})) c k.key = .ok x) : tb.rawAppend (some (.single k)) v = .ok (tb.setCont c, b) := by
  unfold Tbl.rawAppend
  rw [h]
  show (match Cont.has (fuelFor c (.null {})) c k.key with
    | .error e => _
    | .ok _ => _) = _
  rw [hh]

/-- the lines of a table, read by the loop for the top of a document -/
theorem tableLoop_top : ∀ (n : Nat) {full : Key} {tb tb' : Tbl} {st s : St}, tableLoop n full tb st = .ok tb' s → s.loss = [] → st.loss = [] →
    ∃ c s1, topItems n tb.cont ⟨st.rest, [], st.aot, []⟩ = .ok c s1 ∧ s1.loss = [] ∧
      ((s1.rest = [] ∧ s.rest = [] ∧ s.aot = st.aot ∧ tb' = tb.setCont c) ∨ (s1.cur = 91 ∧ ∃ m, childLoop m full (tb.setCont c) s1 = .ok tb' s)) := by
  intro n
  induction n with
  | zero => intro full tb tb' st s h; cases h
  | succ n ih =>
    intro full tb tb' st s h hl hst
    rcases tableLoop_step h hl with ⟨rfl, rfl, h0⟩ | ⟨hne, s1, h1, hl1, hc, h2⟩ | ⟨hne, k, v, s1, h1, hl1, h2⟩
    · refine ⟨tb'.cont, ⟨s.rest, [], s.aot, []⟩, ?_, rfl, .inl ⟨h0, h0, rfl, (setCont_self _).symm⟩⟩
      rw [topItems, getSt_bind, if_pos (by rw [h0]; rfl)]
      rfl
    · rcases st with ⟨R, e, a, l⟩
      have hst : l = [] := hst
      subst hst
      refine ⟨tb.cont, s1, ?_, hl1, .inr ⟨hc, n, by rw [setCont_self]; exact h2⟩⟩
      have h1 : parseItem ⟨R, [], a, []⟩ = .ok none s1 := h1
      rw [topItems, getSt_bind]
      by_cases h91 : (St.mk R [] a []).cur = 91
      · rw [if_pos (by rw [h91]; simp)]
        obtain ⟨r, rfl⟩ := cur_cons h91 (by decide)
        have h3 : parseItem ⟨91 :: r, [], a, []⟩ = .ok none ⟨91 :: r, [], a, []⟩ := rfl
        rw [h3] at h1
        cases h1
        rfl
      · rw [if_neg (by
          rcases R with _ | ⟨x, R⟩
          · exact absurd rfl hne
          · have h91 : x ≠ 91 := h91
            simp [St.atEnd, St.cur, h91])]
        exact (bind_step h1).trans rfl
    · rcases st with ⟨R, e, a, l⟩
      have hst : l = [] := hst
      subst hst
      have hi := keeps_fact (parseItem_keeps _) h1 hl1
      have h1 : parseItem ⟨R, [], a, []⟩ = .ok (some (k, v)) s1 := h1
      have hv : k = none ∨ v.isSimple = true := by
        rcases k with _ | k
        · exact .inl rfl
        · obtain ⟨_, _, _, hp⟩ := hi.pair k v rfl
          exact .inr hp.simple
      have hcond : ¬ (((St.mk R [] a []).atEnd || decide ((St.mk R [] a []).cur = 91)) = true) := by
        intro hx
        rcases R with _ | ⟨x, R⟩
        · exact hne rfl
        · have hx : decide (x = 91) = true := hx
          have hx := of_decide_eq_true hx
          subst hx
          have h3 : parseItem ⟨91 :: R, [], a, []⟩ = .ok none ⟨91 :: R, [], a, []⟩ := rfl
          rw [h3] at h1
          cases h1
      have hmw : (if (k.map Key.isMulti).getD false = true then none else mergeWs tb.cont v) = mergeWs tb.cont v := by
        split
        · rename_i hk
          have hv : v.isSimple = true := hv.resolve_left fun h0 => by rw [h0] at hk; cases hk
          refine (mergeWs_none ?_).symm
          rcases v with _ | _ | _ | _ | _ | _ | _ | _ | _ | _ | _ | tb | ⟨ts, t, nm, p⟩ | _ <;> first | rfl | cases hv
        · rfl
      have ha : s1.aot = a := parseItem_aot h1
      rcases h2 with ⟨c, hm, h2⟩ | ⟨hm, r, hr, h2⟩
      · obtain ⟨c1, s2, g1, g2, g3⟩ := ih h2 hl hl1
        rw [setCont_cont] at g1
        refine ⟨c1, s2, ?_, g2, ?_⟩
        · rw [topItems, getSt_bind, if_neg hcond]
          refine (bind_step h1).trans ?_
          dsimp only
          rw [hmw, hm]
          dsimp only
          refine (bind_step (st' := ⟨s1.rest, [], s1.aot, []⟩) (x := ()) ?_).trans g1
          obtain ⟨r1, e1, a1, l1⟩ := s1
          have : l1 = [] := hl1
          subst this
          rfl
        · rcases g3 with ⟨g3, g4, g5, g6⟩ | ⟨g3, m, g4⟩
          · exact .inl ⟨g3, g4, g5.trans ha, by rw [g6, setCont_setCont]⟩
          · exact .inr ⟨g3, m, by rw [setCont_setCont] at g4; exact g4⟩
      · obtain ⟨c, hap, rfl, _⟩ := tblRaw_inv hr
        rw [append_val (hv.imp_right fun h => by
          rcases v with _ | _ | _ | _ | _ | _ | _ | _ | _ | _ | _ | tb | ⟨ts, t, nm, p⟩ | _ <;> first | rfl | cases h)] at hap
        obtain ⟨c1, s2, g1, g2, g3⟩ := ih h2 hl hl1
        rw [setCont_cont] at g1
        refine ⟨c1, s2, ?_, g2, ?_⟩
        · rw [topItems, getSt_bind, if_neg hcond]
          refine (bind_step h1).trans ?_
          dsimp only
          rw [hmw, hm]
          dsimp only
          rw [hap]
          obtain ⟨r1, e1, a1, l1⟩ := s1
          have : l1 = [] := hl1
          subst this
          exact g1
        · rcases g3 with ⟨g3, g4, g5, g6⟩ | ⟨g3, m, g4⟩
          · exact .inl ⟨g3, g4, g5.trans ha, by rw [g6, setCont_setCont]⟩
          · exact .inr ⟨g3, m, by rw [setCont_setCont] at g4; exact g4⟩

theorem topItems_good : ∀ (n : Nat) {c c' : Cont} {st s : St}, topItems n c st = .ok c' s → s.loss = [] → c.Good PW → c'.Good PW := by
  intro n
  induction n with
  | zero => intro c c' st s h; cases h
  | succ n ih =>
    intro c c' st s h hl hg
    rcases topItems_turn h hl with ⟨_, rfl, rfl⟩ | ⟨_, _, rfl⟩ | ⟨_, k, v, s1, h1, hl1, h2⟩
    · exact hg
    · exact hg
    · have hv := parseItem_good h1
      rcases h2 with ⟨c1, hm, h2⟩ | ⟨hm, c1, hap, h2⟩
      · refine ih h2 hl (mergeWs_good hg (v := v) ?_)
        split at hm
        · cases hm
        · exact hm
      · exact ih h2 hl (append_good closed_PW hg hv hap)

theorem childLoop_hasD : ∀ (n : Nat) {full : Key} {tb tb' : Tbl} {st s : St}, childLoop n full tb st = .ok tb' s → s.loss = [] → tb.cont.parsed = true →
    HasD tb.cont → HasD tb'.cont := by
  intro n
  induction n with
  | zero => intro full tb tb' st s h; cases h
  | succ n ih =>
    intro full tb tb' st s h hl hp ht
    rcases childLoop_step h hl with ⟨rfl, rfl, h0⟩ | ⟨hne, pk, hpk, hc, rfl, rfl⟩ | ⟨hne, pk, hpk, hc, p, s1, h1, hl1, r, hr, h2⟩
    · exact ht
    · exact ht
    · obtain ⟨c, hap, rfl, _⟩ := tblRaw_inv hr
      exact ih h2 hl (by rw [setCont_cont]; exact (append_hasT hp hap (.inl ht.hasT)).2) (by rw [setCont_cont]; exact append_hasD hp hap (.inl ht))

end Tomlkit
