import Verif.Proofs.LockTables
import Verif.Proofs.Copies
import Verif.Proofs.Consist
/-!
# Reading a document in which the values of some lines are changed
-/
namespace Tomlkit
open _root_.Spec Tomlkit.Spec

variable {Upd Q : Item → Item → Prop}

/-- one turn of the first loop, with everything that is needed to repeat it -/
theorem topItems_turn {n : Nat} {c c' : Cont} {st s : St} (h : topItems (n + 1) c st = .ok c' s) (hl : s.loss = []) :
    ((st.atEnd || decide (st.cur = 91)) = true ∧ c' = c ∧ s = st) ∨
    ((st.atEnd || decide (st.cur = 91)) = false ∧ parseItem st = .ok none s ∧ c' = c) ∨
    (st.atEnd || decide (st.cur = 91)) = false ∧ ∃ k v s1, parseItem st = .ok (some (k, v)) s1 ∧ s1.loss = [] ∧
      ((∃ c1, (if (k.map Key.isMulti).getD false = true then none else mergeWs c v) = some c1 ∧ topItems n c1 ⟨s1.rest, [], s1.aot, []⟩ = .ok c' s) ∨
       ((if (k.map Key.isMulti).getD false = true then none else mergeWs c v) = none ∧ ∃ c1, Cont.append true c k v = .ok (c1, false) ∧
          topItems n c1 ⟨s1.rest, [], s1.aot, []⟩ = .ok c' s)) := by
  unfold topItems at h
  rw [getSt_bind] at h
  by_cases hc : (st.atEnd || decide (st.cur = 91)) = true
  · rw [if_pos hc] at h
    cases h
    exact .inl ⟨hc, rfl, rfl⟩
  rw [if_neg hc] at h
  have hc : (st.atEnd || decide (st.cur = 91)) = false := by simpa using hc
  obtain ⟨r, s1, q1, h⟩ := bind_ok h
  right
  rcases r with _ | ⟨k, v⟩
  · cases h
    exact .inl ⟨hc, q1, rfl⟩
  · refine .inr ⟨hc, k, v, s1, q1, ?_⟩
    dsimp only at h
    generalize hx : (if (k.map Key.isMulti).getD false = true then none else mergeWs c v) = x at h
    rcases x with _ | c1
    rotate_left
    · obtain ⟨_, s2, q2, h⟩ := bind_ok h
      cases q2
      have hl1 : s1.loss = [] := loss_nil (mono_topItems _ _ _ _ _ h).2 hl
      rw [hl1] at h
      exact ⟨hl1, .inl ⟨c1, rfl, h⟩⟩
    · dsimp only at h
      obtain ⟨⟨c1, mv⟩, s2, q2, h⟩ := bind_ok h
      obtain ⟨q2, hs2⟩ := wrapErr_inv q2
      rw [hs2] at h
      obtain ⟨_, s3, q3, h⟩ := bind_ok h
      obtain ⟨_, s4, q4, h⟩ := bind_ok h
      cases q4
      have h3 : s3.loss = [] := loss_nil (mono_topItems _ _ _ _ _ h).2 hl
      have hmv := note_false q3 h3
      have hs3 := note_quiet q3 h3
      rw [hs3] at h h3
      simp only at hmv
      rw [hmv] at q2
      rw [h3] at h
      exact ⟨h3, .inr ⟨rfl, c1, q2, h⟩⟩

theorem atEnd_head {R R' e e' : Str} {a a' : List Key} {l l' : List Loss} (h : R'.head? = R.head?) :
    ((St.mk R' e' a' l').atEnd || decide ((St.mk R' e' a' l').cur = 91)) = ((St.mk R e a l).atEnd || decide ((St.mk R e a l).cur = 91)) := by
  rw [cur_of_head (e := e) (a := a) (l := l) h]
  congr 1
  unfold St.atEnd
  have := nil_of_head h
  cases R <;> cases R' <;> simp_all

theorem follow_wrap {α β : Type} {x : Except Err α} {a : α} (h : x = .ok a) {f : α → P β} {st : St} {F : β → St → Prop} (hf : Follow (f a st) F) :
    Follow ((wrapErr x >>= f) st) F := by
  rw [h]; exact hf

/-- the lines at the top of a document are read with other values -/
theorem topItems_lock (hL : LineHyp Upd Q) : ∀ (n : Nat) (st s : St) (c c1 : Cont), st.ext = [] → st.loss = [] → topItems n c st = .ok c1 s → s.loss = [] →
    s.aot = st.aot ∧ ∃ vs, Lock Upd Q vs s (fun R' => R'.head? = st.rest.head?) fun R' R1 us => ∀ n' ts c', TwinC ts c c' →
      Follow (topItems n' c' ⟨R', [], st.aot, []⟩) fun c1' s' => TwinC (ts ++ us) c1 c1' ∧ Halts s s' R1 := by
  intro n
  induction n with
  | zero => intro st s c c1 _ _ h; cases h
  | succ n ih =>
    intro st s c c1 hext hst h hl
    rcases st with ⟨R, e, a, l⟩
    have hst : l = [] := hst
    subst hst
    have hext : e = [] := hext
    subst hext
    rcases topItems_turn h hl with ⟨hc, rfl, rfl⟩ | ⟨hc, h1, rfl⟩ | ⟨hc, k, v, s1, h1, hl1, h2⟩
    · refine ⟨rfl, [], .stay fun R1 hm => ⟨hm.head, fun n' ts c' ht => ?_⟩⟩
      rcases n' with _ | n'
      · exact .fuel
      rw [topItems, getSt_bind, if_pos ((atEnd_head hm.head).trans hc), List.append_nil]
      exact .ok ⟨ht, .self rfl fun _ => rfl⟩
    · have ha : s.aot = a := parseItem_aot h1
      refine ⟨ha, [], ?_⟩
      intro ws hws R1 hm
      cases hws.none
      obtain ⟨u, hu, h3⟩ := local_run (fun _ _ _ _ _ _ _ => Rel.parseItem) mono_parseItem h1 hl ha hm.head
      have hhd : (u ++ R1).head? = R.head? := by rw [hu]; exact head_append hm.head
      refine ⟨u ++ R1, [], .nil Q, hhd, fun n' ts c' ht => ?_⟩
      rcases n' with _ | n'
      · exact .fuel
      rw [topItems, getSt_bind, if_neg (by rw [atEnd_head (e := []) (a := a) (l := []) hhd, hc]; decide)]
      refine Follow.step h3 ?_
      rw [List.append_nil]
      exact .ok ⟨ht, .self ha.symm fun _ => rfl⟩
    · have ha : s1.aot = a := parseItem_aot h1
      have hi := keeps_fact (parseItem_keeps _) h1 hl1
      have key : ∀ c2, topItems n c2 ⟨s1.rest, [], s1.aot, []⟩ = .ok c1 s →
          (∀ ts us c' i s' st', TwinC ts c c' → TwinI us v i → ItemIs st' (some (k, i)) s' →
            (∃ c2', (if (k.map Key.isMulti).getD false = true then none else mergeWs c' i) = some c2' ∧ TwinC (ts ++ us) c2 c2') ∨
            ((if (k.map Key.isMulti).getD false = true then none else mergeWs c' i) = none ∧ ∃ c2', Cont.append true c' k i = .ok (c2', false) ∧ TwinC (ts ++ us) c2 c2')) →
          s.aot = a ∧ ∃ vs, Lock Upd Q vs s (fun R' => R'.head? = R.head?) fun R' R1 us => ∀ n' ts c', TwinC ts c c' →
            Follow (topItems n' c' ⟨R', [], a, []⟩) fun c1' s' => TwinC (ts ++ us) c1 c1' ∧ Halts s s' R1 := by
        intro c2 h2 htw
        obtain ⟨g1, vs, g2⟩ := ih ⟨s1.rest, [], s1.aot, []⟩ s c2 c1 rfl rfl h2 hl
        refine ⟨g1.trans ha, v.leaves ++ vs, ?_⟩
        intro ws hws R1 hm
        obtain ⟨ws1, ws2, rfl, hw1, hw2⟩ := hws.split
        obtain ⟨Rm, us2, f2, c2', run⟩ := g2 ws2 hw2 R1 hm
        obtain ⟨R', i, us1, f1, hhd, hti, hr⟩ := item_lock hL h1 hl1 hw1 c2'
        refine ⟨R', us1 ++ us2, f1.append f2, hhd, fun n' ts c' ht => ?_⟩
        rcases n' with _ | n'
        · exact .fuel
        obtain ⟨e1, h3⟩ := hr []
        have hi' := keeps_fact (parseItem_keeps _) h3 rfl
        rw [topItems, getSt_bind, if_neg (by rw [atEnd_head (e := []) (a := a) (l := []) hhd, hc]; decide)]
        refine Follow.step h3 ?_
        dsimp only
        rcases htw ts us1 c' i _ _ ht hti hi' with ⟨c3, hm', ht'⟩ | ⟨hm', c3, hr', ht'⟩
        · rw [hm']
          dsimp only
          refine Follow.step (s := ⟨Rm, [], a, []⟩) (a := ()) rfl ?_
          have := run n' (ts ++ us1) _ ht'
          rw [List.append_assoc] at this
          rw [← ha]
          exact this
        · rw [hm']
          dsimp only
          refine follow_wrap hr' ?_
          refine Follow.step (s := ⟨Rm, e1, a, []⟩) (a := ()) rfl ?_
          refine Follow.step (s := ⟨Rm, [], a, []⟩) (a := ()) rfl ?_
          have := run n' (ts ++ us1) _ ht'
          rw [List.append_assoc] at this
          rw [← ha]
          exact this
      rcases h2 with ⟨c2, hm, h2⟩ | ⟨hm, c2, hr, h2⟩
      · refine key _ h2 fun ts us c' i s' st' ht hti hi' => .inl ?_
        by_cases hk : (k.map Key.isMulti).getD false = true
        · rw [if_pos hk] at hm; cases hm
        · rw [if_neg hk] at hm ⊢
          exact (ht.merge hti).2 c2 hm
      · refine key _ h2 fun ts us c' i s' st' ht hti hi' => .inr ?_
        refine ⟨?_, (ht.appendLine hti hi hi' hr).2⟩
        by_cases hk : (k.map Key.isMulti).getD false = true
        · rw [if_pos hk]
        · rw [if_neg hk] at hm ⊢
          exact (ht.merge hti).1 hm

/-- a table that is read outside of arrays of tables is no element of one -/
theorem table_plain {n : Nat} {parent : Option Key} {st s : St} {p : Key × Item} (hR : Ready st) (h : parseTable n parent st = .ok p s) (hl : s.loss = [])
    (ha : st.aot = []) : ∀ tb, p.2 = .table tb → tb.isAot = false := by
  obtain ⟨u, b, k, ht⟩ := keeps_fact ((tables_keep n).1 st parent) h hl hR
  exact ht.notAot ha

theorem table_top {n : Nat} {st s : St} {p : Key × Item} (hR : Ready st) (h : parseTable n none st = .ok p s) (hl : s.loss = []) :
    ∃ k1, p.1 = .single k1 ∧ (Entry.mk (some k1) p.2).Clean := by
  obtain ⟨u, b, k, ht⟩ := keeps_fact ((tables_keep n).1 st none) h hl hR
  obtain ⟨k1, h1, h2, _⟩ := ht.entry (by
    show 0 < _
    exact List.length_pos_iff.2 ht.ne)
  exact ⟨k1, h1, h2.clean⟩

/-- what the second loop does with a table -/
def topValue (n : Nat) (p : Key × Item) : P Item :=
  match p.2 with
  | .table tb => if tb.isAot then parseAot n tb p.1 else pure p.2
  | _ => pure p.2

theorem topTables_eq (n : Nat) (c : Cont) (st : St) (h : st.rest ≠ []) : topTables (n + 1) c st = (parseTable n none >>= fun p => topValue n p >>= fun v =>
    wrapErr (Cont.append true c (some p.1) v) >>= fun r => note r.2 .reordered >>= fun _ => topTables n r.1) st := by
  rw [topTables, getSt_bind, if_neg (fun hx => h (atEnd_iff.1 hx))]
  refine congrFun (congrArg (parseTable n none >>= ·) ?_) st
  funext p
  rcases p with ⟨k, v⟩
  rcases v with _ | _ | _ | _ | _ | _ | _ | _ | _ | _ | _ | tb | _ | _ <;> first | rfl | skip
  unfold topValue
  dsimp only
  split <;> rfl

theorem topValue_plain (n : Nat) (p : Key × Item) (h : ∀ tb, p.2 = .table tb → tb.isAot = false) : topValue n p = pure p.2 := by
  rcases p with ⟨k, v⟩
  rcases v with _ | _ | _ | _ | _ | _ | _ | _ | _ | _ | _ | tb | _ | _ <;> first | rfl | skip
  unfold topValue
  dsimp only
  rw [if_neg (by rw [h tb rfl]; decide)]

/-- one turn of the second loop -/
theorem topTables_turn {n : Nat} {c c1 : Cont} {st s : St} (hR : Ready st) (ha : st.aot = []) (h : topTables (n + 1) c st = .ok c1 s) (hl : s.loss = []) :
    (st.rest = [] ∧ c1 = c ∧ s = st) ∨
    (st.rest ≠ [] ∧ ∃ p s1, parseTable n none st = .ok p s1 ∧ s1.loss = [] ∧ ∃ c2, Cont.append true c (some p.1) p.2 = .ok (c2, false) ∧
      topTables n c2 s1 = .ok c1 s) := by
  by_cases h0 : st.rest = []
  · rw [topTables, getSt_bind, if_pos (atEnd_iff.2 h0)] at h
    cases h
    exact .inl ⟨h0, rfl, rfl⟩
  refine .inr ⟨h0, ?_⟩
  rw [topTables_eq n c st h0] at h
  obtain ⟨p, s1, q1, h⟩ := bind_ok h
  obtain ⟨v, s2, q2, h⟩ := bind_ok h
  obtain ⟨⟨c2, mv⟩, s3, q3, hh⟩ := bind_ok h
  clear h
  obtain ⟨q5, hs3⟩ := wrapErr_inv q3
  rw [hs3] at hh
  obtain ⟨_, s4, q4, h⟩ := bind_ok hh
  clear hh
  have hl4 : s4.loss = [] := loss_nil (mono_topTables _ _ _ _ _ h).2 hl
  have hmv : mv = false := note_false q4 hl4
  have hs4 := note_quiet q4 hl4
  rw [hs4] at h hl4
  subst hmv
  have hl1 : s1.loss = [] := by
    refine loss_nil ?_ hl4
    unfold topValue at q2
    have hp : ∀ w, (pure w : P Item) s1 = .ok v s2 → s1.loss <+: s2.loss := fun w h => by cases h; exact List.prefix_refl _
    rcases p with ⟨k, w⟩
    rcases w with _ | _ | _ | _ | _ | _ | _ | _ | _ | _ | _ | tb | _ | _ <;> first | exact hp _ q2 | skip
    dsimp only at q2
    by_cases hb : tb.isAot = true
    · rw [if_pos hb] at q2
      exact (mono_aot _ _ _ _ _ _ q2).2
    · rw [if_neg hb] at q2
      exact hp _ q2
  rw [topValue_plain n p (table_plain hR q1 hl1 ha)] at q2
  cases q2
  exact ⟨p, s1, q1, hl1, c2, q5, h⟩

/-- the tables of a document are read with other values -/
theorem topTables_lock (hL : LineHyp Upd Q) : ∀ (n : Nat) (st s : St) (c c1 : Cont), Ready st → st.aot = [] → st.loss = [] → topTables n c st = .ok c1 s → s.loss = [] →
    s.rest = [] ∧ ∃ vs, Lock Upd Q vs s (Meet st) fun R' R1 us => ∀ n' e' ts c', (st.rest ≠ [] → e' = st.ext) → TwinC ts c c' →
      Follow (topTables n' c' ⟨R', e', [], []⟩) fun c1' s' => TwinC (ts ++ us) c1 c1' ∧ Halts s s' R1 := by
  intro n
  induction n with
  | zero => intro st s c c1 _ _ _ h; cases h
  | succ n ih =>
    intro st s c c1 hR ha hst h hl
    rcases topTables_turn hR ha h hl with ⟨h0, rfl, rfl⟩ | ⟨hne, p, s1, h1, hl1, c2, hap, h2⟩
    · refine ⟨h0, [], .stay fun R1 hm => ⟨hm, fun n' e' ts c' _ ht => ?_⟩⟩
      rcases n' with _ | n'
      · exact .fuel
      cases hm.nil h0
      rw [List.append_nil]
      exact .ok ⟨ht, .self ha.symm fun hx => absurd h0 hx⟩
    · obtain ⟨g1, vs1, g2⟩ := (tables_lock hL n).1 st s1 none p hR hst h1 hl1
      have hR1 := table_ready hR h1 hl1
      obtain ⟨hend, vs2, g4⟩ := ih s1 s c2 c1 hR1 (g1.trans ha) hl1 h2 hl
      refine ⟨hend, vs1 ++ vs2, g2.comp g4 ?_⟩
      intro R' Rm R1 us1 us2 hm hC hmm run1 run2 n' e' ts c' he ht
      rcases n' with _ | n'
      · exact .fuel
      cases he hne
      rw [topTables_eq n' c' _ (fun hx => hne ((nil_of_head hC.head).1 hx))]
      have hrun := run1 n'
      rw [ha] at hrun
      refine Follow.bind hrun fun p' s' hp' hF => ?_
      obtain ⟨hk, hti, hh⟩ := hF
      have hR' : Ready ⟨R', st.ext, [], []⟩ := hR.meet hC.head
      obtain ⟨k1, hk1, hcl⟩ := table_top hR h1 hl1
      obtain ⟨k1', hk1', hcl'⟩ := table_top hR' hp' hh.loss
      rw [topValue_plain n' p' (table_plain hR' hp' hh.loss rfl)]
      have : k1' = k1 := by
        rw [hk, hk1] at hk1'
        cases hk1'; rfl
      subst this
      rw [hk1] at hap
      obtain ⟨r', hr', ht'⟩ := ht.appendTable hti hcl hcl' hap
      refine Follow.step (s := s') (a := p'.2) rfl ?_
      rw [hk1']
      refine follow_wrap hr' ?_
      refine Follow.step (s := s') (a := ()) rfl ?_
      have hs' := hh.state
      rw [g1, ha] at hs'
      rw [hs']
      have := run2 n' s'.ext (ts ++ us1) r' hh.ext ht'
      rw [List.append_assoc] at this
      exact this

theorem twin_empty : TwinC [] (.empty true) (.empty true) :=
  ⟨rfl, Cont.good_empty closed_PW, Cont.good_empty closed_PW, ⟨rfl, trivial⟩, ⟨rfl, trivial⟩, rfl, rfl⟩

theorem parse_fuel (s : Str) : parse s ≠ .error .fuel := by
  intro h
  rcases (parse_all s).2 _ h with ⟨_, _, h, _⟩ | ⟨h, _⟩ | h | h | h | h <;> cases h

theorem ListRel_refl {α : Type} {R : α → α → Prop} (h : ∀ a, R a a) : ∀ l, ListRel R l l
  | [] => .nil
  | a :: l => .cons (h a) (ListRel_refl h l)

theorem parseLog_pre {s : Str} {doc : Cont} {l : List Loss} (h : parseLog s = .ok (doc, l)) :
    ∃ c st, preDoc s (.init s) = .ok c st ∧ doc = c.stopParsing ∧ st.loss = l := by
  unfold parseLog at h
  rw [parseDoc_pre] at h
  rcases hx : preDoc s (.init s) with ⟨c, st⟩ | ⟨e, st⟩ <;> rw [hx] at h
  · dsimp only at h
    have h := Except.ok.inj h
    exact ⟨c, st, rfl, (Prod.mk.inj h).1.symm, (Prod.mk.inj h).2⟩
  · cases h

theorem pre_follow {s : Str} {F : Cont → St → Prop} (h : Follow (preDoc s (.init s)) F) : ∃ c st, F c st ∧ parseLog s = .ok (c.stopParsing, st.loss) := by
  rcases h with ⟨st, h⟩ | ⟨c, st, h, hF⟩
  · refine absurd ?_ (parse_fuel s)
    unfold parse parseLog
    rw [parseDoc_pre, h]
    rfl
  · refine ⟨c, st, hF, ?_⟩
    unfold parseLog
    rw [parseDoc_pre, h]

/-- **A document in which the values of some lines are changed is read.** -/
theorem doc_lock (hL : LineHyp Upd Q) (hrefl : ∀ v, Upd v v) {s : Str} {doc : Cont} (h : parseLog s = .ok (doc, [])) :
    ∃ c, doc = c.stopParsing ∧ c.Clean ∧ c.Good PW ∧ ∀ ws, ListRel Upd c.leaves ws →
      ∃ s' c' us, Fits Q us c.leaves ws ∧ TwinC us c c' ∧ parseLog s' = .ok (c'.stopParsing, []) := by
  obtain ⟨c, st, hp, rfl, hl⟩ := parseLog_pre h
  unfold preDoc at hp
  obtain ⟨c0, s0, h1, h2⟩ := bind_ok hp
  have hl0 : s0.loss = [] := loss_nil (mono_topTables _ _ _ _ _ h2).2 hl
  obtain ⟨hR0, ha0, hc0, _⟩ := keeps_fact (topItems_keep _ _ _) h1 hl0 rfl ⟨rfl, trivial⟩
  have ha0 : s0.aot = [] := ha0
  obtain ⟨_, vs1, g1⟩ := topItems_lock hL (docFuel s) (.init s) s0 (.empty true) c0 rfl rfl h1 hl0
  obtain ⟨hend, vs2, g2⟩ := topTables_lock hL (docFuel s) s0 st c0 c hR0 ha0 hl0 h2 hl
  -- the other texts
  have hall : ∀ ws, ListRel Upd (vs1 ++ vs2) ws → ∃ s' c' us, Fits Q us (vs1 ++ vs2) ws ∧ TwinC us c c' ∧ parseLog s' = .ok (c'.stopParsing, []) := by
    intro ws hws
    obtain ⟨ws1, ws2, rfl, hw1, hw2⟩ := hws.split
    obtain ⟨Rm, us2, f2, c2, r2⟩ := g2 ws2 hw2 [] ⟨by rw [hend], fun a pk hpk => by rw [hend] at hpk; exact hpk⟩
    obtain ⟨R', us1, f1, c1, r1⟩ := g1 ws1 hw1 Rm c2
    have hF : Follow (preDoc R' (.init R')) fun c' s' => TwinC (us1 ++ us2) c c' ∧ s'.loss = [] := by
      unfold preDoc
      refine Follow.bind (r1 (docFuel R') [] _ twin_empty) fun c1' s1' _ hF => ?_
      have hs := hF.2.state
      rw [ha0] at hs
      rw [hs]
      rcases r2 (docFuel R') s1'.ext _ c1' hF.2.ext hF.1 with h | ⟨c2', s2', h, hF2⟩
      · exact .inl h
      · exact .inr ⟨c2', s2', h, hF2.1, hF2.2.loss⟩
    obtain ⟨c', s', hF, hlog⟩ := pre_follow hF
    rw [hF.2] at hlog
    exact ⟨R', c', us1 ++ us2, f1.append f2, hF.1, hlog⟩
  obtain ⟨_, _, us, hf, ht, _⟩ := hall _ (ListRel_refl hrefl _)
  have hleaves : c.leaves = vs1 ++ vs2 := ht.left.trans hf.1
  refine ⟨c, rfl, ht.clean, ht.good, ?_⟩
  rw [hleaves]
  exact hall

end Tomlkit
