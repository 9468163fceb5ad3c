import Verif.Proofs.Over
import Verif.Proofs.Blind
/-!
# Tables below other lines
-/
namespace Tomlkit
open _root_.Spec Tomlkit.Spec

variable {c t d : Cont}

/-- no name of a line stands for a table -/
def Lined (c : Cont) : Prop := ∀ k is, mapGet k c.map = some is → ∃ i e, is.getLast? = some i ∧ c.body[i]? = some e ∧ e.v.isTableLike = false

/-- a parsed table is good -/
theorem parseTable_good {n : Nat} {parent : Option Key} {st s : St} {p : Key × Item} (h : parseTable n parent st = .ok p s) : p.2.Good PW := by
  have hs := (tables_steady n (n + (4 * st.rest.length + 1)) (by omega)).1 parent st
  have h1 : parseTable (n + (4 * st.rest.length + 1)) parent st = .ok p s := by
    rcases hs with ⟨s', hs⟩ | hs
    · rw [h] at hs; cases hs
    · rw [hs, h]
  have := (table_does (n + (4 * st.rest.length + 1))).1 st parent (by omega)
  unfold DoesT P.wp at this
  rw [h1] at this
  exact this.2.2.2.2.1

/-- `append1` of a table with enough fuel -/
theorem append1_any {c r : Cont} {key : Option SKey} {v : Item} {val b : Bool} {n : Nat} (hg : c.Good PW) (hv : v.Good PW)
    (h : Cont.append1 n false val c key v = .ok (r, b)) : Cont.append1 (fuelFor c v) false val c key v = .ok (r, b) := by
  have hs := (append_stable n (n + fuelFor c v) (by omega)).1 false val c key v
  have h1 := hs.ok h
  rcases (append_stable (fuelFor c v) (n + fuelFor c v) (by omega)).1 false val c key v with h2 | h2
  · rcases (append1_err (fuelFor c v)).1 hg hv (Nat.le_refl _) h2 with h | h | h | h <;> cases h
  · rw [← h2, h1]

theorem rawAppend_has {c r : Cont} {key : Option SKey} {v : Item} (h : c.rawAppend key v = .ok r) :
    (∀ k, mapGet k c.map ≠ none → mapGet k r.map ≠ none) ∧ ∀ k, key = some k → mapGet k.key r.map ≠ none := by
  rcases key with _ | k
  · cases h
    exact ⟨fun _ h => h, fun _ h => by cases h⟩
  have key : ∀ (is : List Nat) (m : List (Str × List Nat)), m = mapSet k.key is c.map →
      (∀ x, mapGet x c.map ≠ none → mapGet x m ≠ none) ∧ ∀ x, some k = some x → mapGet x.key m ≠ none := by
    rintro is m rfl
    refine ⟨fun x hx => ?_, fun x hx => ?_⟩
    · rw [mapGet_mapSet]; split
      · exact fun h => by cases h
      · exact hx
    · cases hx
      rw [mapGet_mapSet, if_pos rfl]
      exact fun h => by cases h
  unfold Cont.rawAppend at h
  dsimp only at h
  split at h
  · split at h
    · split at h
      · cases h; exact key _ _ rfl
      · cases h
    · cases h
  · cases h; exact key _ _ rfl

/-- the names only grow -/
theorem append1_has {n : Nat} {val : Bool} {c r : Cont} {key : Option SKey} {v : Item} (hp : c.parsed = true) (h : Cont.append1 n false val c key v = .ok (r, false)) :
    (∀ k, mapGet k c.map ≠ none → mapGet k r.map ≠ none) ∧ ∀ k, key = some k → mapGet k.key r.map ≠ none := by
  rcases n with _ | n
  · rw [Cont.append1] at h; cases h
  have tail : ∀ {w : Item} {r : Cont}, c.appendTail key w = .ok r → c.rawAppend key w = .ok r := by
    intro w r h
    unfold Cont.appendTail at h
    rcases key with _ | k
    · exact h
    · simpa only [hp, Bool.not_true, Bool.and_false, Bool.false_and, Bool.false_eq_true, if_false] using h
  have hout := append1_cases h
  generalize hb : false = b at hout
  have same : ∀ (i : Nat) (cur : Entry) (w : Item) (k : SKey), key = some k → c.lastEntry k.key = some (i, cur) →
      (∀ x, mapGet x c.map ≠ none → mapGet x (c.setAt i cur w).map ≠ none) ∧ ∀ x, key = some x → mapGet x.key (c.setAt i cur w).map ≠ none := by
    intro i cur w k hk hl
    refine ⟨fun _ h => h, fun x hx => ?_⟩
    rw [hk] at hx; cases hx
    obtain ⟨_, is, his, _⟩ := lastEntry_get hl
    show mapGet k.key c.map ≠ none
    rw [his]; exact fun h => by cases h
  cases hout with
  | fresh item' c' hp' hk ht => exact rawAppend_has (tail ht)
  | again item' c' k i cur ct tb hp' hk hl hc hi ht => exact rawAppend_has (tail ht)
  | aotAdd => cases hb
  | toAoT => cases hb
  | superApart item' k i cur tb ct c' idx hp' hk hl hc hi hs hs' hidx hr hv =>
    rw [if_neg (by rw [hidx, hp]; simp)] at hr
    exact rawAppend_has hr
  | superMerge item' k i cur tb ct ct' mv hp' hk hl => exact same _ _ _ _ hk hl
  | aotMerge item' k i cur ts t nm p ts' t' nm' p' hp' hk hal hl => exact same _ _ _ _ hk hl

/-- only tables, after a table -/
theorem append1_tabled {n : Nat} {val : Bool} {c r : Cont} {k : SKey} {v : Item} (hp : c.parsed = true) (h : Cont.append1 n false val c (some k) v = .ok (r, false))
    (hv : v.isTableLike = true) (hc : ∀ e ∈ c.body, e.v.isTableLike = true) : ∀ e ∈ r.body, e.v.isTableLike = true := by
  rcases n with _ | n
  · rw [Cont.append1] at h; cases h
  have tail : ∀ {w : Item} {r : Cont}, c.appendTail (some k) w = .ok r → c.rawAppend (some k) w = .ok r := by
    intro w r h
    unfold Cont.appendTail at h
    simpa only [hp, Bool.not_true, Bool.and_false, Bool.false_and, Bool.false_eq_true, if_false] using h
  have hpre : ∀ w, c.prepare (some k) v = .ok w → w.isTableLike = true := by
    intro w hw
    obtain ⟨w', g1, g2, g3⟩ := prepare_kind (c := c) (k := k) (v := v)
    rw [g1] at hw; cases hw
    unfold Item.isTableLike at hv ⊢
    rw [g2, g3]; exact hv
  have push : ∀ {w : Item}, c.prepare (some k) v = .ok w → c.rawAppend (some k) w = .ok r → ∀ e ∈ r.body, e.v.isTableLike = true := by
    intro w hw h e he
    rw [rawAppend_body h] at he
    rcases List.mem_append.1 he with he | he
    · exact hc e he
    · rw [List.mem_singleton] at he; subst he; exact hpre w hw
  have set : ∀ (i : Nat) (cur : Entry) (w : Item), w.isTableLike = true → ∀ e ∈ (c.setAt i cur w).body, e.v.isTableLike = true := by
    intro i cur w hw e he
    have he : e ∈ c.body.set i (.mk cur.key w) := he
    rcases List.mem_or_eq_of_mem_set he with he | rfl
    · exact hc e he
    · exact hw
  have hout := append1_cases h
  generalize hb : false = b at hout
  cases hout with
  | fresh item' c' hp' hk ht => exact push hp' (tail ht)
  | again item' c' k i cur ct tb hp' hk hl hc hi ht => exact push hp' (tail ht)
  | aotAdd => cases hb
  | toAoT => cases hb
  | superApart item' k i cur tb ct c' idx hp' hk hl hc hi hs hs' hidx hr hv =>
    rw [if_neg (by rw [hidx, hp]; simp)] at hr
    exact push hp' hr
  | superMerge item' k i cur tb ct ct' mv hp' hk hl => exact set _ _ _ rfl
  | aotMerge item' k i cur ts t nm p ts' t' nm' p' hp' hk hal hl => exact set _ _ _ rfl

/-- a table does not go to the name of a line -/
theorem append1_apart {n : Nat} {val b : Bool} {c t d r : Cont} {k : SKey} {v : Item} (hO : Over c t d) (hc : Lined c) (hv : v.isTableLike = true)
    (h : Cont.append1 n false val d (some k) v = .ok (r, b)) : mapGet k.key c.map = none := by
  rcases hm : mapGet k.key c.map with _ | is
  · rfl
  exfalso
  obtain ⟨i, e, h1, h2, h3⟩ := hc _ _ hm
  have hd := (hO.line _ _ hm).1
  have hil : i < c.body.length := by
    rcases Nat.lt_or_ge i c.body.length with h | h
    · exact h
    · rw [List.getElem?_eq_none h] at h2; cases h2
  have hlast : d.lastEntry k.key = some (i, e) := by
    unfold Cont.lastEntry
    rw [hd]
    simp only [h1]
    rw [hO.body, List.getElem?_append_left hil, h2]
    rfl
  rcases n with _ | n
  · rw [Cont.append1] at h; cases h
  have hno : ∀ j cur, d.lastEntry k.key = some (j, cur) → cur.v.isTableLike = true → False := by
    intro j cur hj hcur
    rw [hlast] at hj
    cases hj
    rw [h3] at hcur; cases hcur
  cases append1_cases h with
  | fresh item' c' hp' hk ht => rw [hk k rfl] at hd; cases hd
  | again item' c' k' i cur ct tb hp' hk hl hc => cases hk; exact hno _ _ hl (by rw [hc]; rfl)
  | aotAdd item' k' i cur tb ts t nm p hp' hk hal hl hc => cases hk; exact hno _ _ hl (by rw [hc]; rfl)
  | toAoT item' k' i cur tb ct c' hp' hk hal hl hc => cases hk; exact hno _ _ hl (by rw [hc]; rfl)
  | superApart item' k' i cur tb ct c' idx hp' hk hl hc => cases hk; exact hno _ _ hl (by rw [hc]; rfl)
  | superMerge item' k' i cur tb ct ct' mv hp' hk hl hc => cases hk; exact hno _ _ hl (by rw [hc]; rfl)
  | aotMerge item' k' i cur ts t nm p ts' t' nm' p' hp' hk hal hl hc => cases hk; exact hno _ _ hl (by rw [hc]; rfl)

/-- a run that ends well is the same with other fuel and another log -/
theorem table_again {n : Nat} {parent : Option Key} {st s : St} {p : Key × Item} (h : parseTable n parent st = .ok p s) (h0 : st.loss = []) (hl : s.loss = [])
    (n' : Nat) (lg : List Loss) : Follow (parseTable n' parent (st.log lg)) fun p' s' => p' = p ∧ s' = s.log lg := by
  have h1 : parseTable (n + n') parent st = .ok p s := by
    rcases (tables_steady n (n + n') (by omega)).1 parent st with ⟨s', hs⟩ | hs
    · rw [h] at hs; cases hs
    · rw [hs, h]
  have hb := (blind_tables n').1 parent st lg
  rcases (tables_steady n' (n + n') (by omega)).1 parent st with ⟨s', hs⟩ | hs
  · rw [hs] at hb
    generalize parseTable n' parent (st.log lg) = y at hb ⊢
    cases hb
    exact .fuel
  · rw [h1] at hs
    rw [← hs] at hb
    generalize parseTable n' parent (st.log lg) = y at hb ⊢
    cases hb with
    | ok x s d h =>
      rw [hl, h0] at h
      have : d = [] := h.symm
      subst this
      rw [List.append_nil]
      exact .ok ⟨rfl, rfl⟩

/-- the tables of a document, below other lines -/
theorem tables_over : ∀ (n : Nat) (st s : St) (c t d d1 : Cont), Ready st → st.aot = [] → st.loss = [] → topTables n d st = .ok d1 s → s.loss = [] →
    Over c t d → Lined c → t.Good PW → d.Good PW →
    ∃ t1, Over c t1 d1 ∧ t1.Good PW ∧ d1.Good PW ∧ s.rest = [] ∧ (∀ k, mapGet k t.map ≠ none → mapGet k t1.map ≠ none) ∧
      ((∀ e ∈ t.body, e.v.isTableLike = true) → ∀ e ∈ t1.body, e.v.isTableLike = true) ∧
      ∀ c' d', Over c' t d' → d'.Good PW → (∀ k, mapGet k t1.map ≠ none → mapGet k c'.map = none) → ∀ n' lg,
        Follow (topTables n' d' (st.log lg)) fun d1' s' => Over c' t1 d1' ∧ d1'.Good PW ∧ s' = s.log lg := by
  intro n
  induction n with
  | zero => intro st s c t d d1 _ _ _ h; cases h
  | succ n ih =>
    intro st s c t d d1 hR ha hst h hl hO hc ht hd
    rcases topTables_turn hR ha h hl with ⟨h0, rfl, rfl⟩ | ⟨hne, p, s1, h1, hl1, d2, hap, h2⟩
    · refine ⟨t, hO, ht, hd, h0, fun _ h => h, fun h => h, fun c' d' hO' hd' _ n' lg => ?_⟩
      rcases n' with _ | n'
      · exact .fuel
      rw [topTables, getSt_bind, if_pos (atEnd_iff.2 (show (s.log lg).rest = [] from h0))]
      exact .ok ⟨hO', hd', rfl⟩
    · have hv := parseTable_good h1
      have hR1 := table_ready hR h1 hl1
      obtain ⟨k1, hk1, hcl⟩ := table_top hR h1 hl1
      rw [hk1] at hap
      have hap : Cont.append1 (fuelFor d p.2) false true d (some k1) p.2 = .ok (d2, false) := hap
      have hk := append1_apart hO hc (parseTable_table h1) hap
      have hrun := hO.append1 ((Cont.good_iff _).1 ht).1.parsed (fuelFor d p.2) true (some k1) (fun k hk' => by cases hk'; exact hk) p.2
      rw [hap] at hrun
      obtain ⟨t2, d2', b, e1, e2, hO2⟩ : ∃ t2 d2' b, Cont.append1 (fuelFor d p.2) false true t (some k1) p.2 = .ok (t2, b) ∧ (Except.ok (d2, false) : Except Err (Cont × Bool)) = .ok (d2', b) ∧ Over c t2 d2' := by
        rcases hrun with ⟨e, _, h⟩ | h
        · cases h
        · exact h
      cases e2
      have hg2 := (append1_good closed_PW _).1 ht hv e1
      have hgd2 := (append1_good closed_PW _).1 hd hv hap
      obtain ⟨hm1, hm2⟩ := append1_has ((Cont.good_iff _).1 ht).1.parsed e1
      have ha1 : s1.aot = [] := by
        obtain ⟨u, b, k, hk⟩ := keeps_fact ((tables_keep n).1 st none) h1 hl1 hR
        have := hk.aot
        rw [this]; exact ha
      obtain ⟨t1, hO1, hg1, hgd1, hend, hnames, htab, hfollow⟩ := ih s1 s c t2 d2 d1 hR1 ha1 hl1 h2 hl hO2 hc hg2 hgd2
      refine ⟨t1, hO1, hg1, hgd1, hend, fun k hk => hnames k (hm1 k hk), fun h => htab (append1_tabled ((Cont.good_iff _).1 ht).1.parsed e1 (parseTable_table h1) h), fun c' d' hO' hd' hdis n' lg => ?_⟩
      rcases n' with _ | n'
      · exact .fuel
      rw [topTables_eq n' d' _ (show (st.log lg).rest ≠ [] from hne)]
      refine Follow.bind (table_again h1 hst hl1 n' lg) fun p' s' _ hF => ?_
      obtain ⟨rfl, rfl⟩ := hF
      rw [topValue_plain n' p' (table_plain hR h1 hl1 ha)]
      refine Follow.step (s := s1.log lg) (a := p'.2) rfl ?_
      have hk' : mapGet k1.key c'.map = none := hdis _ (hnames _ (hm2 k1 rfl))
      have hrun' := hO'.append1 ((Cont.good_iff _).1 ht).1.parsed (fuelFor d p'.2) true (some k1) (fun k hk => by cases hk; exact hk') p'.2
      rw [e1] at hrun'
      obtain ⟨d2', e2, hO2'⟩ : ∃ d2', Cont.append1 (fuelFor d p'.2) false true d' (some k1) p'.2 = .ok (d2', false) ∧ Over c' t2 d2' := by
        rcases hrun' with ⟨e, h, _⟩ | ⟨_, d2', _, h, h', h''⟩
        · cases h
        · cases h; exact ⟨d2', h', h''⟩
      have hap' := append1_any hd' hv e2
      rw [hk1]
      refine follow_wrap (show Cont.append true d' (some (.single k1)) p'.2 = _ from hap') ?_
      refine Follow.step (s := s1.log lg) (a := ()) rfl ?_
      exact hfollow c' d2' hO2' ((append1_good closed_PW _).1 hd' hv hap') hdis n' lg

end Tomlkit
