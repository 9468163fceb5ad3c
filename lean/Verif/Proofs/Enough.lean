import Verif.Proofs.AppendErr
import Verif.Proofs.Insert
/-!
# The fuel of the container operations is enough, also in documents that are complete
-/
namespace Tomlkit

theorem prepare_fuel {c : Cont} {key : Option SKey} {item : Item} {e : Err} (h : c.prepare key item = .error e) : e ≠ .fuel := by
  rcases prepare_err h with rfl | rfl | rfl | rfl <;> exact fun hh => by cases hh

theorem rawAppend_fuel {c : Cont} {key : Option SKey} {item : Item} {e : Err} (h : c.rawAppend key item = .error e) : e ≠ .fuel := by
  unfold Cont.rawAppend at h
  rcases key with _ | k
  · cases h
  · dsimp only at h
    split at h
    · split at h
      · split at h <;> cases h
        exact fun hh => by cases hh
      · cases h
        exact fun hh => by cases hh
    · cases h

theorem insertAt_fuel {c : Cont} {i : Nat} {k : SKey} {item : Item} {e : Err} (h : c.insertAt i k item = .error e) : e ≠ .fuel := by
  unfold Cont.insertAt at h
  split at h <;> cases h
  exact fun hh => by cases hh

theorem appendTail_fuel {c : Cont} {key : Option SKey} {item : Item} {e : Err} (h : c.appendTail key item = .error e) : e ≠ .fuel := by
  unfold Cont.appendTail at h
  rcases key with _ | k <;> dsimp only at h
  · exact rawAppend_fuel h
  · split at h
    · split at h
      · exact insertAt_fuel h
      · exact rawAppend_fuel h
    · exact rawAppend_fuel h

/-- with this much fuel, the container operations never run out of it -/
theorem append1_enough : ∀ n,
    (∀ {al validate : Bool} {c : Cont} {key : Option SKey} {item : Item} {e : Err}, c.Good Cont.WF → item.Good Cont.WF →
      3 * (c.size + item.size) + 6 ≤ n → Cont.append1 n al validate c key item = .error e → e ≠ .fuel) ∧
    (∀ {c : Cont} {k : Str} {e : Err}, c.Good Cont.WF → 3 * c.size + 2 ≤ n → Cont.has n c k = .error e → e ≠ .fuel) ∧
    (∀ {c : Cont} {k : Str} {is : List Nat} {e : Err}, c.Good Cont.WF → mapGet k c.map = some is → 3 * c.size + 1 ≤ n →
      Cont.mkProxy n c is = .error e → e ≠ .fuel) ∧
    (∀ {al : Bool} {t : Tbl} {key : Option SKey} {item : Item} {e : Err}, t.Good Cont.WF → item.Good Cont.WF →
      3 * (t.size + item.size) + 4 ≤ n → Tbl.append1 n al t key item = .error e → e ≠ .fuel) := by
  intro n
  induction n with
  | zero =>
    refine ⟨?_, ?_, ?_, ?_⟩
    · intro _ _ _ _ _ _ _ _ h; omega
    · intro _ _ _ _ h; omega
    · intro _ _ _ _ _ _ h; omega
    · intro _ _ _ _ _ _ _ h; omega
  | succ n ih =>
    obtain ⟨ihA, ihH, ihP, ihT⟩ := ih
    refine ⟨?_, ?_, ?_, ?_⟩
    · intro al validate c key item e hc hi hn h
      have hpw : c.WF := ((Cont.good_iff _).1 hc).1
      rw [Cont.append1] at h
      split at h
      · cases h; exact (fun hh => by cases hh)
      rcases hp : c.prepare key item with e1 | item' <;> rw [hp] at h
      · cases h; exact prepare_fuel hp
      have hsz := prepare_size hp
      have hgi := prepare_good closed_WF hi hp
      dsimp only at h
      rcases key with _ | k
      · exact appendTail_fuel (map_pair_err h)
      dsimp only at h
      rcases hh : Cont.has n c k.key with e1 | b <;> rw [hh] at h
      · cases h; exact ihH hc (by omega) hh
      cases b
      · exact appendTail_fuel (map_pair_err h)
      dsimp only at h
      rcases hl : c.lastEntry k.key with _ | ⟨i, cur⟩ <;> rw [hl] at h
      · exfalso
        obtain ⟨is, his⟩ := Option.isSome_iff_exists.1 (Cont.has_true hh)
        obtain ⟨hne, _⟩ := hpw.idx.ok _ _ his
        have hne : is ≠ [] := by intro hn; subst hn; exact hne rfl
        have hi := List.getLast?_eq_some_getLast hne
        have hat := hpw.idx.at his (List.mem_of_getLast? hi)
        rw [shape_names, List.getElem?_map] at hat
        unfold Cont.lastEntry at hl
        rw [his] at hl; dsimp only at hl
        rw [hi] at hl; dsimp only at hl
        rcases hb : c.body[is.getLast hne]? with _ | x <;> rw [hb] at hat hl
        · cases hat
        · cases hl
      dsimp only at h
      have hget := (lastEntry_get hl).1
      rcases item' with _ | _ | _ | _ | _ | _ | _ | _ | _ | _ | _ | tb | ⟨ts, t, nm, p⟩ | _
      case table =>
        dsimp only at h
        split at h
        · cases h; exact (fun hh => by cases hh)
        split at h
        · split at h
          · cases h; exact (fun hh => by cases hh)
          · rcases hcv : cur.v with _ | _ | _ | _ | _ | _ | _ | _ | _ | _ | _ | ct | ⟨ts, t, nm, p⟩ | _ <;> rw [hcv] at h
            case table =>
              have h := map_pair_err h
              unfold Cont.replaceByAoT at h
              obtain ⟨is, his⟩ := Option.isSome_iff_exists.1 (Cont.has_true hh)
              obtain ⟨hne, _⟩ := hpw.idx.ok _ _ his
              rw [his] at h
              rcases is with _ | ⟨x, r⟩
              · exact absurd rfl hne
              · cases h
            case aot => cases h
            all_goals (cases h; exact (fun hh => by cases hh))
        · rcases hcv : cur.v with _ | _ | _ | _ | _ | _ | _ | _ | _ | _ | _ | ct | ⟨ts, t, nm, p⟩ | _ <;> rw [hcv] at h
          case table =>
            dsimp only at h
            have hgc := good_at hc hget
            rw [hcv] at hgc
            have hcsz := bsz_mem hget
            rw [hcv, Item.size_table] at hcsz
            have hc' := c.size_bsz
            rw [Item.size_table, Tbl.size_eq, Cont.size_bsz] at hsz
            split at h
            · split at h
              · split at h
                · cases h; exact (fun hh => by cases hh)
                · split at h
                  · rename_i hr
                    cases h
                    generalize (if (k.dotted && !c.parsed) = true then c.lastIndexBeforeTable else c.body.length) = ix at hr
                    split at hr
                    · exact insertAt_fuel hr
                    · exact rawAppend_fuel hr
                  · rename_i c1 hr
                    split at h
                    · rename_i hv
                      cases h
                      generalize (if (k.dotted && !c.parsed) = true then c.lastIndexBeforeTable else c.body.length) = ix at hr
                      split at hv
                      · have hs1 : c1.size ≤ c.size + (Item.table tb).size + 1 := by
                          split at hr
                          · have := insertAt_size hr; omega
                          · have := rawAppend_size hr; omega
                        rw [prepare_size hp] at hs1
                        refine ihH ?_ ?_ hv
                        · rw [Cont.good_iff]
                          split at hr
                          · exact ⟨hpw.insertAt (fun is hm => ⟨rfl, by
                              obtain ⟨is', g1, _, _, _, g5, _⟩ := Cont.lastEntry_spec hpw hl
                              rw [hm] at g1
                              cases g1
                              exact g5 (by rw [hcv]; rfl)⟩) hr, insertAt_bodyGood ((Cont.good_iff _).1 hc).2 hgi hr⟩
                          · exact ⟨hpw.rawAppend (fun _ _ _ => rfl) hr, rawAppend_bodyGood ((Cont.good_iff _).1 hc).2 hgi hr⟩
                        · omega
                      · cases hv
                    · cases h
                · split at h
                  · rename_i hf
                    cases h
                    refine foldE_err (fun (l : List Entry) (p : Tbl × Bool) => p.1.Good Cont.WF ∧ (∀ e ∈ l, e.v.Good Cont.WF) ∧
                      p.1.size + bsz l ≤ ct.size + bsz tb.cont.body) (· ≠ .fuel) ⟨?_, ?_, ?_⟩ ?_ ?_ hf
                    · exact Tbl.deepCopy_good closed_WF ct hgc
                    · exact ((Cont.good_iff _).1 ((Tbl.good_iff _).1 hgi)).2
                    · rw [Tbl.size_deepCopy]; exact Nat.le_refl _
                    · rintro p a r p' ⟨h1, h2, h3⟩ hx
                      rcases hy : Tbl.append1 n al p.1 a.key a.v with e1 | ⟨t1, m1⟩ <;> rw [hy] at hx <;> cases hx
                      have hs := (append1_size n).2 hy
                      have hb : bsz (a :: r) = 1 + a.v.size + bsz r := by simp [bsz]
                      refine ⟨(append1_good closed_WF n).2 h1 (h2 a (List.mem_cons_self ..)) hy,
                        fun e he => h2 e (List.mem_cons_of_mem _ he), ?_⟩
                      simp only; omega
                    · rintro p a r e ⟨h1, h2, h3⟩ hx
                      have hb : bsz (a :: r) = 1 + a.v.size + bsz r := by simp [bsz]
                      exact ihT h1 (h2 a (List.mem_cons_self ..)) (by omega) (map_pair_err hx)
                  · cases h
              · split at h
                · cases h; exact (fun hh => by cases hh)
                · exact appendTail_fuel (map_pair_err h)
            · split at h
              · cases h; exact (fun hh => by cases hh)
              · exact appendTail_fuel (map_pair_err h)
          all_goals (cases h; exact (fun hh => by cases hh))
      case aot =>
        dsimp only at h
        split at h
        · split at h
          · cases h; exact (fun hh => by cases hh)
          · cases h
        · cases h; exact (fun hh => by cases hh)
      all_goals (cases h; exact (fun hh => by cases hh))
    · intro c k e hc hn h
      rw [Cont.has] at h
      rcases hm : mapGet k c.map with _ | is <;> rw [hm] at h
      · cases h
      · match is, hm, h with
        | [], hm, h => exact ihP hc hm (by omega) (map_pair_err h)
        | [_], _, h => cases h
        | _ :: _ :: _, hm, h => exact ihP hc hm (by omega) (map_pair_err h)
    · intro c k is e hc hm hn h
      have hpw : c.WF := ((Cont.good_iff _).1 hc).1
      have hnd := (hpw.idx.ok _ _ hm).2
      have hts := tablesAt_size hnd c.body
      have hcs := c.size_bsz
      rw [Cont.mkProxy] at h
      generalize hL : ((tablesAt c.body is).flatMap fun t => t.cont.body) = L at h
      have hLs : L ≠ [] → bsz L + 2 ≤ bsz c.body := by
        intro hne
        rw [← hL, bsz_flatMap]
        refine Nat.le_trans (sum_add_two _ ?_) hts
        rintro h0; rw [h0] at hL; exact hne hL.symm
      have hLg : ∀ e ∈ L, e.v.Good Cont.WF := by
        intro e he
        rw [← hL] at he
        obtain ⟨t, ht, het⟩ := List.mem_flatMap.1 he
        obtain ⟨x, hx, hxv⟩ := tablesAt_mem ht
        have := ((Cont.good_iff _).1 hc).2 x hx
        rw [hxv] at this
        exact ((Cont.good_iff _).1 ((Tbl.good_iff _).1 this)).2 e het
      split at h
      · rename_i hf
        cases h
        refine foldE_err (fun (l : List Entry) (p : Cont) => p.Good Cont.WF ∧ (∀ e ∈ l, e.v.Good Cont.WF) ∧
          (l ≠ [] → p.size + bsz l ≤ 1 + bsz L ∧ L ≠ [])) (· ≠ .fuel) ⟨?_, hLg, ?_⟩ ?_ ?_ hf
        · exact Cont.good_empty closed_WF
        · intro hl
          refine ⟨?_, hl⟩
          rw [Cont.size_bsz]; simp [Cont.empty, bsz]
        · rintro p a r p' ⟨h1, h2, h3⟩ hx
          rcases hy : Cont.append1 n true false p a.key a.v with e1 | ⟨t1, m1⟩ <;> rw [hy] at hx <;> cases hx
          have hs := (append1_size n).1 hy
          have hb : bsz (a :: r) = 1 + a.v.size + bsz r := by simp [bsz]
          obtain ⟨h4, h5⟩ := h3 (by simp)
          refine ⟨(append1_good closed_WF n).1 h1 (h2 a (List.mem_cons_self ..)) hy,
            fun e he => h2 e (List.mem_cons_of_mem _ he), ?_⟩
          intro _
          refine ⟨?_, h5⟩
          simp only; omega
        · rintro p a r e ⟨h1, h2, h3⟩ hx
          have hb : bsz (a :: r) = 1 + a.v.size + bsz r := by simp [bsz]
          obtain ⟨h4, h5⟩ := h3 (by simp)
          have := hLs h5
          exact ihA h1 (h2 a (List.mem_cons_self ..)) (by omega) (map_pair_err hx)
      · rename_i p hf
        split at h
        · rename_i hv
          cases h
          -- the scratch container is good and small
          have hp : p.Good Cont.WF ∧ (L ≠ [] → p.size ≤ 1 + bsz L) ∧ (L = [] → p.map = []) := by
            have key : ∀ (l : List Entry) (q : Cont), q.Good Cont.WF → (∀ e ∈ l, e.v.Good Cont.WF) →
                foldE (fun p (e : Entry) => (Cont.append1 n true false p e.key e.v).map Prod.fst) q l = .ok p →
                p.Good Cont.WF ∧ p.size ≤ q.size + bsz l := by
              intro l
              induction l with
              | nil => intro q h1 _ h3; cases h3; exact ⟨h1, by simp [bsz]⟩
              | cons a r ihl =>
                intro q h1 h2 h3
                simp only [foldE] at h3
                rcases hy : Cont.append1 n true false q a.key a.v with e1 | ⟨t1, m1⟩ <;> rw [hy] at h3 <;>
                  simp only [Except.map] at h3
                · cases h3
                · have hs := (append1_size n).1 hy
                  have hb : bsz (a :: r) = 1 + a.v.size + bsz r := by simp [bsz]
                  obtain ⟨h5, h6⟩ := ihl t1 ((append1_good closed_WF n).1 h1 (h2 a (List.mem_cons_self ..)) hy)
                    (fun e he => h2 e (List.mem_cons_of_mem _ he)) h3
                  exact ⟨h5, by omega⟩
            obtain ⟨h1, h2⟩ := key L (.empty true) (Cont.good_empty closed_WF) hLg hf
            refine ⟨h1, ?_, ?_⟩
            · intro _
              have : (Cont.empty true).size = 1 := rfl
              omega
            · intro hl
              rw [hl] at hf
              cases hf; rfl
          by_cases hl : L = []
          · rw [hp.2.2 hl] at hv; cases hv
          · have h1 := hp.2.1 hl
            have h2 := hLs hl
            refine foldE_err (fun _ _ => True) (· ≠ .fuel) trivial (fun _ _ _ _ _ _ => trivial) ?_ hv
            rintro _ k _ e _ hx
            exact ihH hp.1 (by omega) (map_pair_err hx)
        · cases h
    · intro al t key item e ht hi hn h
      have hg := (Tbl.good_iff t).1 ht
      have hts := t.size_eq
      rw [Tbl.append1] at h
      rcases hx : Cont.append1 n al true t.cont key item with er | ⟨c, m1⟩ <;> rw [hx] at h <;> dsimp only at h
      · cases h; exact ihA hg hi (by omega) hx
      have hcg := (append1_good closed_WF n).1 hg hi hx
      have hcs := (append1_size n).1 hx
      split at h
      · rename_i ho
        cases h
        rcases key with _ | k
        · cases ho
        · exact ihH hcg (by omega) ho
      split at h
      · cases h
      split at h
      · cases h; exact (fun hh => by cases hh)
      split at h
      · cases h; exact (fun hh => by cases hh)
      split at h
      · cases h
      split at h
      · cases h; exact (fun hh => by cases hh)
      · cases h

end Tomlkit
