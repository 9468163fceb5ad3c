import Verif.Proofs.InLines
/-!
# The sub-tables of a table, below other lines
-/
namespace Tomlkit
open _root_.Spec Tomlkit.Spec

theorem has_any {c : Cont} {k : Str} {n : Nat} {x : Bool} {v : Item} (hg : c.Good PW) (h : Cont.has n c k = .ok x) : Cont.has (fuelFor c v) c k = .ok x := by
  have h1 := ((append_stable n (n + fuelFor c v) (by omega)).2.1 c k).ok h
  rcases (append_stable (fuelFor c v) (n + fuelFor c v) (by omega)).2.1 c k with h2 | h2
  · rcases has_err hg h2 with h | h | h | h <;> cases h
  · rw [← h2, h1]

theorem peek_log {st : St} {pk : Bool × Key} (h : peekTable st = .ok pk st) (lg : List Loss) : peekTable (st.log lg) = .ok pk (st.log lg) := by
  have hb := blind_peekTable st lg
  rw [h] at hb
  have hi := @peekTable_inv (st.log lg)
  generalize peekTable (st.log lg) = y at hb hi ⊢
  cases hb with
  | ok x s d h => rw [← hi rfl]

/-- the sub-tables of a table, below other lines -/
theorem child_over : ∀ (n : Nat) (full : Key) (st s : St) (c t : Cont) (tb tb1 : Tbl), Ready st → st.loss = [] → childLoop n full tb st = .ok tb1 s → s.loss = [] →
    Over c t tb.cont → Lined c → t.Good PW → tb.cont.Good PW →
    ∃ t1, Over c t1 tb1.cont ∧ tb1 = tb.setCont tb1.cont ∧ t1.Good PW ∧ tb1.cont.Good PW ∧ (∀ k, mapGet k t.map ≠ none → mapGet k t1.map ≠ none) ∧
      ((∀ e ∈ t.body, e.v.isTableLike = true) → ∀ e ∈ t1.body, e.v.isTableLike = true) ∧
      ∀ c' tb', Over c' t tb'.cont → tb'.cont.Good PW → (∀ k, mapGet k t1.map ≠ none → mapGet k c'.map = none) → ∀ n' lg,
        Follow (childLoop n' full tb' (st.log lg)) fun tb1' s' => Over c' t1 tb1'.cont ∧ tb1' = tb'.setCont tb1'.cont ∧ tb1'.cont.Good PW ∧ s' = s.log lg := by
  intro n
  induction n with
  | zero => intro full st s c t tb tb1 _ _ h; cases h
  | succ n ih =>
    intro full st s c t tb tb1 hR hst h hl hO hc ht hd
    rcases childLoop_step h hl with ⟨rfl, rfl, h0⟩ | ⟨hne, pk, hpk, hch, rfl, rfl⟩ | ⟨hne, pk, hpk, hch, p, s1, h1, hl1, r, hr, h2⟩
    · refine ⟨t, hO, (setCont_self _).symm, ht, hd, fun _ h => h, fun h => h, fun c' tb' hO' hd' _ n' lg => ?_⟩
      rcases n' with _ | n'
      · exact .fuel
      rw [childLoop, getSt_bind, if_pos (atEnd_iff.2 (show (s.log lg).rest = [] from h0))]
      exact .ok ⟨hO', (setCont_self _).symm, hd', rfl⟩
    · refine ⟨t, hO, (setCont_self _).symm, ht, hd, fun _ h => h, fun h => h, fun c' tb' hO' hd' _ n' lg => ?_⟩
      rcases n' with _ | n'
      · exact .fuel
      rw [childLoop, getSt_bind, if_neg (fun hx => hne (atEnd_iff.1 (show (s.log lg).atEnd = true from hx)))]
      refine Follow.step (peek_log hpk lg) ?_
      dsimp only
      rw [if_neg (by rw [hch]; decide)]
      exact .ok ⟨hO', (setCont_self _).symm, hd', rfl⟩
    · have hv := parseTable_good h1
      have hR1 := table_ready hR h1 hl1
      obtain ⟨k1, hk1, hcl⟩ := table_entry hR h1 hl1 hpk (isChild_length hch)
      rw [hk1] at hr
      obtain ⟨d2, hap, rfl, hhas⟩ := tblRaw_inv hr
      obtain ⟨x, hx⟩ := hhas k1 [] rfl
      have hap : Cont.append1 (fuelFor tb.cont p.2) false false tb.cont (some k1) p.2 = .ok (d2, false) := hap
      have hk := append1_apart hO hc (parseTable_table h1) hap
      have hrun := hO.append1 ((Cont.good_iff _).1 ht).1.parsed (fuelFor tb.cont p.2) false (some k1) (fun k hk' => by cases hk'; exact hk) p.2
      rw [hap] at hrun
      obtain ⟨t2, d2', b, e1, e2, hO2⟩ : ∃ t2 d2' b, Cont.append1 (fuelFor tb.cont p.2) false false t (some k1) p.2 = .ok (t2, b) ∧ (Except.ok (d2, false) : Except Err (Cont × Bool)) = .ok (d2', b) ∧ Over c t2 d2' := by
        rcases hrun with ⟨e, _, h⟩ | h
        · cases h
        · exact h
      cases e2
      have hg2 := (append1_good closed_PW _).1 ht hv e1
      have hgd2 := (append1_good closed_PW _).1 hd hv hap
      obtain ⟨hm1, hm2⟩ := append1_has ((Cont.good_iff _).1 ht).1.parsed e1
      obtain ⟨t1, hO1, hset, hg1, hgd1, hnames, htab, hfollow⟩ := ih full s1 s c t2 (tb.setCont d2) tb1 hR1 hl1 h2 hl (by rw [setCont_cont]; exact hO2) hc hg2 (by rw [setCont_cont]; exact hgd2)
      rw [setCont_setCont] at hset
      refine ⟨t1, hO1, hset, hg1, hgd1, fun k hk => hnames k (hm1 k hk), fun h => htab (append1_tabled ((Cont.good_iff _).1 ht).1.parsed e1 (parseTable_table h1) h), fun c' tb' hO' hd' hdis n' lg => ?_⟩
      rcases n' with _ | n'
      · exact .fuel
      rw [childLoop, getSt_bind, if_neg (fun hx => hne (atEnd_iff.1 (show (st.log lg).atEnd = true from hx)))]
      refine Follow.step (peek_log hpk lg) ?_
      dsimp only
      rw [if_pos hch]
      refine Follow.bind (table_again h1 hst hl1 n' lg) fun p' s' _ hF => ?_
      obtain ⟨rfl, rfl⟩ := hF
      have hk' : mapGet k1.key c'.map = none := hdis _ (hnames _ (hm2 k1 rfl))
      have hrun' := hO'.append1 ((Cont.good_iff _).1 ht).1.parsed (fuelFor tb.cont p'.2) false (some k1) (fun k hk => by cases hk; exact hk') p'.2
      rw [e1] at hrun'
      obtain ⟨d2', e2, hO2'⟩ : ∃ d2', Cont.append1 (fuelFor tb.cont p'.2) false false tb'.cont (some k1) p'.2 = .ok (d2', false) ∧ Over c' t2 d2' := by
        rcases hrun' with ⟨e, h, _⟩ | ⟨_, d2', _, h, h', h''⟩
        · cases h
        · cases h; exact ⟨d2', h', h''⟩
      have hap' := append1_any hd' hv e2
      have hgd2' := (append1_good closed_PW _).1 hd' hv hap'
      have hx' : Cont.has (fuelFor d2' (.null {})) d2' k1.key = .ok x := by
        refine has_any (n := fuelFor d2 (.null {})) hgd2' ?_
        rw [hO2'.has _ hk', ← hO2.has _ hk]
        exact hx
      have hraw : tb'.rawAppend (some p'.1) p'.2 = .ok (tb'.setCont d2', false) := by
        rw [hk1]
        exact tblRaw_run hap' hx'
      refine follow_lift hraw ?_
      refine Follow.bind (.ok (F := fun _ s => s = s1.log lg) rfl) fun _ s2 _ hs2 => ?_
      rw [hs2]
      have := hfollow c' (tb'.setCont d2') (by rw [setCont_cont]; exact hO2') (by rw [setCont_cont]; exact hgd2') hdis n' lg
      rcases this with h | ⟨a, s', h, g1, g2, g3, g4⟩
      · exact .inl h
      · exact .inr ⟨a, s', h, g1, by rw [setCont_setCont] at g2; exact g2, g3, g4⟩

end Tomlkit
