import Verif.Proofs.Lockstep
/-!
# Reading tables in which the values of some lines are changed
-/
namespace Tomlkit
open _root_.Spec Tomlkit.Spec

section
variable (Upd Q : Item → Item → Prop)

/-- the entries of a table are read with other values -/
def LoopLock (n : Nat) : Prop := ∀ (st s : St) (full : Key) (tb tb1 : Tbl), st.loss = [] → tableLoop n full tb st = .ok tb1 s → s.loss = [] →
  s.aot = st.aot ∧ ∃ vs, Lock Upd Q vs s (fun R' => R'.head? = st.rest.head?) fun R' R1 us => ∀ n' e' ts tb', TwinT ts tb tb' →
    Follow (tableLoop n' full tb' ⟨R', e', st.aot, []⟩) fun tb1' s' => TwinT (ts ++ us) tb1 tb1' ∧ Halts s s' R1

/-- the child tables are read with other values -/
def ChildLock (n : Nat) : Prop := ∀ (st s : St) (full : Key) (tb tb1 : Tbl), Ready st → st.loss = [] → childLoop n full tb st = .ok tb1 s → s.loss = [] →
  s.aot = st.aot ∧ ∃ vs, Lock Upd Q vs s (Meet st) fun R' R1 us => ∀ n' e' ts tb', (st.rest ≠ [] → e' = st.ext) → TwinT ts tb tb' →
    Follow (childLoop n' full tb' ⟨R', e', st.aot, []⟩) fun tb1' s' => TwinT (ts ++ us) tb1 tb1' ∧ Halts s s' R1

/-- a table is read with other values -/
def TableLock (n : Nat) : Prop := ∀ (st s : St) (parent : Option Key) (p : Key × Item), Ready st → st.loss = [] → parseTable n parent st = .ok p s → s.loss = [] →
  s.aot = st.aot ∧ ∃ vs, Lock Upd Q vs s (Meet st) fun R' R1 us => ∀ n',
    Follow (parseTable n' parent ⟨R', st.ext, st.aot, []⟩) fun p' s' => p'.1 = p.1 ∧ TwinI us p.2 p'.2 ∧ Halts s s' R1

/-- an array of tables is read with other values -/
def AotLock (n : Nat) : Prop := ∀ (st s : St) (name : Key) (first : Tbl) (v : Item), Ready st → st.loss = [] → parseAot n first name st = .ok v s → s.loss = [] →
  s.aot = st.aot ∧ ∃ vs, Lock Upd Q vs s (Meet st) fun R' R1 us => ∀ n' e' ts first', (st.rest ≠ [] → e' = st.ext) → TwinI ts (.table first) (.table first') →
    Follow (parseAot n' first' name ⟨R', e', st.aot, []⟩) fun v' s' => TwinI (ts ++ us) v v' ∧ Halts s s' R1

/-- the further elements of an array of tables are read with other values -/
def ElemsLock (n : Nat) : Prop := ∀ (st s : St) (name : Key) (l l1 : List Tbl), Ready st → st.loss = [] → aotLoop n name l st = .ok l1 s → s.loss = [] →
  s.aot = st.aot ∧ ∃ vs, Lock Upd Q vs s (Meet st) fun R' R1 us => ∀ n' e' ts l', (st.rest ≠ [] → e' = st.ext) → TwinI ts (aotOf l) (aotOf l') →
    Follow (aotLoop n' name l' ⟨R', e', st.aot, []⟩) fun l1' s' => TwinI (ts ++ us) (aotOf l1) (aotOf l1') ∧ Halts s s' R1

end

variable {Upd Q : Item → Item → Prop}

theorem atEnd_iff {st : St} : st.atEnd = true ↔ st.rest = [] := by
  unfold St.atEnd; cases st.rest <;> simp

theorem Meet.nil {st : St} {R : Str} (h : Meet st R) (h0 : st.rest = []) : R = [] := (nil_of_head h.head).2 h0

theorem Halts.self {s : St} {R e : Str} {a : List Key} (ha : a = s.aot) (he : s.rest ≠ [] → e = s.ext) : Halts s ⟨R, e, a, []⟩ R := ⟨rfl, ha, rfl, he⟩

theorem Halts.state {s s' : St} {R : Str} (h : Halts s s' R) : s' = ⟨R, s'.ext, s.aot, []⟩ := by
  rcases s' with ⟨r, e, a, l⟩
  have h1 : r = R := h.rest
  have h2 : a = s.aot := h.aot
  have h3 : l = [] := h.loss
  subst h1 h2 h3
  rfl

theorem Ready.meet {st : St} {R : Str} {a : List Key} (h : Ready st) (hm : R.head? = st.rest.head?) : Ready ⟨R, st.ext, a, []⟩ := by
  rcases h with h | h
  · exact .inl ((nil_of_head hm).2 h)
  · exact .inr h

theorem Follow.step {α β : Type} {p : P α} {f : α → P β} {st s : St} {a : α} {G : β → St → Prop} (h : p st = .ok a s) (hf : Follow (f a s) G) :
    Follow ((p >>= f) st) G := by
  rw [P.bind_def, h]; exact hf

theorem follow_lift {α β : Type} {x : Except Err α} {a : α} (h : x = .ok a) {f : α → P β} {st : St} {F : β → St → Prop} (hf : Follow (f a st) F) :
    Follow ((lift x >>= f) st) F := by
  rw [h]; exact hf

theorem loop_lock {n : Nat} (hL : LineHyp Upd Q) (ihB : LoopLock Upd Q n) (ihC : ChildLock Upd Q n) : LoopLock Upd Q (n + 1) := by
  intro st s full tb tb1 hst h hl
  rcases tableLoop_step h hl with ⟨rfl, rfl, h0⟩ | ⟨hne, s1, h1, hl1, hc, h2⟩ | ⟨hne, k, v, s1, h1, hl1, h2⟩
  · refine ⟨rfl, [], .stay fun R1 hm => ⟨hm.head, fun n' e' ts tb' ht => ?_⟩⟩
    rcases n' with _ | n'
    · exact .fuel
    cases hm.nil h0
    rw [List.append_nil]
    exact .ok ⟨ht, .self rfl fun hx => absurd h0 hx⟩
  · rcases st with ⟨R, e, a, l⟩
    have hst : l = [] := hst
    subst hst
    have ha := parseItem_aot h1
    have hR : Ready s1 := .inr ((keeps_fact (parseItem_keeps _) h1 hl1).stop rfl).2.2
    obtain ⟨g1, vs, g2⟩ := ihC s1 s full tb tb1 hR hl1 h2 hl
    refine ⟨g1.trans ha, vs, ?_⟩
    intro ws hws R1 hm
    obtain ⟨Rm, us, f, c, run⟩ := g2 ws hws R1 hm
    obtain ⟨u, hu, h3⟩ := local_run (fun _ _ _ _ _ _ _ => Rel.parseItem) mono_parseItem h1 hl1 ha c.head
    have hhd : (u ++ Rm).head? = R.head? := by rw [hu]; exact head_append c.head
    refine ⟨u ++ Rm, us, f, hhd, fun n' e' ts tb' ht => ?_⟩
    rcases n' with _ | n'
    · exact .fuel
    have h3 : parseItem ⟨u ++ Rm, e', a, []⟩ = .ok none ⟨Rm, s1.ext, a, []⟩ := h3
    have hE : ¬ (St.mk (u ++ Rm) e' a []).atEnd = true := fun hx => hne ((nil_of_head hhd).1 (atEnd_iff.1 hx))
    have hcur : (St.mk Rm s1.ext a []).cur = 91 := (cur_of_head c.head).trans hc
    rw [tableLoop, getSt_bind, if_neg hE]
    refine Follow.step h3 ?_
    dsimp only
    rw [getSt_bind, if_pos hcur]
    have := run n' s1.ext ts tb' (fun _ => rfl) ht
    rw [ha] at this
    exact this
  · rcases st with ⟨R, e, a, l⟩
    have hst : l = [] := hst
    subst hst
    have ha : s1.aot = a := parseItem_aot h1
    have hi := keeps_fact (parseItem_keeps _) h1 hl1
    -- the next round, in both cases
    have key : ∀ tb2, tableLoop n full tb2 s1 = .ok tb1 s →
        (∀ ts us tb' i s' st', TwinT ts tb tb' → TwinI us v i → ItemIs st' (some (k, i)) s' →
          (∃ c', mergeWs tb'.cont i = some c' ∧ TwinT (ts ++ us) tb2 (tb'.setCont c')) ∨
          (mergeWs tb'.cont i = none ∧ ∃ r', tb'.rawAppend k i = .ok (r', false) ∧ TwinT (ts ++ us) tb2 r')) →
        s.aot = a ∧ ∃ vs, Lock Upd Q vs s (fun R' => R'.head? = R.head?) fun R' R1 us => ∀ n' e' ts tb', TwinT ts tb tb' →
          Follow (tableLoop n' full tb' ⟨R', e', a, []⟩) fun tb1' s' => TwinT (ts ++ us) tb1 tb1' ∧ Halts s s' R1 := by
      intro tb2 h2 htw
      obtain ⟨g1, vs, g2⟩ := ihB s1 s full tb2 tb1 hl1 h2 hl
      refine ⟨g1.trans ha, v.leaves ++ vs, ?_⟩
      intro ws hws R1 hm
      obtain ⟨ws1, ws2, rfl, hw1, hw2⟩ := hws.split
      obtain ⟨Rm, us2, f2, c2, run⟩ := g2 ws2 hw2 R1 hm
      obtain ⟨R', i, us1, f1, hhd, hti, hr⟩ := item_lock hL h1 hl1 hw1 c2
      refine ⟨R', us1 ++ us2, f1.append f2, hhd, fun n' e' ts tb' ht => ?_⟩
      rcases n' with _ | n'
      · exact .fuel
      obtain ⟨e1, h3⟩ := hr e'
      have hE : ¬ (St.mk R' e' a []).atEnd = true := fun hx => hne ((nil_of_head hhd).1 (atEnd_iff.1 hx))
      rw [tableLoop, getSt_bind, if_neg hE]
      refine Follow.step h3 ?_
      dsimp only
      have hi' := keeps_fact (parseItem_keeps _) h3 rfl
      rcases htw ts us1 tb' i _ _ ht hti hi' with ⟨c', hm', ht'⟩ | ⟨hm', r', hr', ht'⟩
      · rw [hm']
        dsimp only
        have := run n' e1 (ts ++ us1) _ ht'
        rw [ha, List.append_assoc] at this
        exact this
      · rw [hm']
        dsimp only
        refine follow_lift hr' ?_
        refine Follow.bind (.ok (F := fun _ s => s = ⟨Rm, e1, a, []⟩) rfl) fun _ s2 _ hs2 => ?_
        rw [hs2]
        have := run n' e1 (ts ++ us1) _ ht'
        rw [ha, List.append_assoc] at this
        exact this
    rcases h2 with ⟨c, hm, h2⟩ | ⟨hm, r, hr, h2⟩
    · refine key _ h2 fun ts us tb' i s' st' ht hti hi' => .inl ?_
      obtain ⟨c', hc', htc⟩ := (ht.cont.merge hti).2 c hm
      exact ⟨c', hc', ht.setCont htc⟩
    · refine key _ h2 fun ts us tb' i s' st' ht hti hi' => .inr ?_
      obtain ⟨_, r', hr', ht'⟩ := ht.rawLine hti hi hi' hr
      exact ⟨(ht.cont.merge hti).1 hm, r', hr', ht'⟩

/-- two runs of `_parse_table` give clean entries -/
theorem table_entry {n : Nat} {parent : Option Key} {st s : St} {p : Key × Item} (hR : Ready st) (h : parseTable n parent st = .ok p s) (hl : s.loss = [])
    {pk : Bool × Key} (hpk : peekTable st = .ok pk st) (hlen : parentLen parent < pk.2.parts.length) :
    ∃ k1, p.1 = .single k1 ∧ (Entry.mk (some k1) p.2).Clean := by
  obtain ⟨u, b, k, ht⟩ := keeps_fact ((tables_keep n).1 st parent) h hl hR
  have : k = pk.2 := by
    have := ht.peek
    rw [hpk] at this
    cases this; rfl
  subst this
  obtain ⟨k1, h1, h2, _⟩ := ht.entry hlen
  exact ⟨k1, h1, h2.clean⟩

theorem table_ready {n : Nat} {parent : Option Key} {st s : St} {p : Key × Item} (hR : Ready st) (h : parseTable n parent st = .ok p s) (hl : s.loss = []) : Ready s := by
  obtain ⟨u, b, k, ht⟩ := keeps_fact ((tables_keep n).1 st parent) h hl hR
  exact ht.ready

theorem child_lock {n : Nat} (ihC : ChildLock Upd Q n) (ihT : TableLock Upd Q n) : ChildLock Upd Q (n + 1) := by
  intro st s full tb tb1 hR hst h hl
  rcases childLoop_step h hl with ⟨rfl, rfl, h0⟩ | ⟨hne, pk, hpk, hc, rfl, rfl⟩ | ⟨hne, pk, hpk, hc, p, s1, h1, hl1, r, hr, h2⟩
  · refine ⟨rfl, [], .stay fun R1 hm => ⟨hm, fun n' e' ts tb' _ ht => ?_⟩⟩
    rcases n' with _ | n'
    · exact .fuel
    cases hm.nil h0
    rw [List.append_nil]
    exact .ok ⟨ht, .self rfl fun hx => absurd h0 hx⟩
  · refine ⟨rfl, [], .stay fun R1 hm => ⟨hm, fun n' e' ts tb' he ht => ?_⟩⟩
    rcases n' with _ | n'
    · exact .fuel
    cases he hne
    have hpk' := hm.peek s.aot pk (by rcases s with ⟨r, e, a, l⟩; have : l = [] := hst; subst this; exact hpk)
    have hE : ¬ (St.mk R1 s.ext s.aot []).atEnd = true := fun hx => hne ((nil_of_head hm.head).1 (atEnd_iff.1 hx))
    rw [childLoop, getSt_bind, if_neg hE]
    refine Follow.step hpk' ?_
    dsimp only
    rw [if_neg (by rw [hc]; decide), List.append_nil]
    exact .ok ⟨ht, .self rfl fun _ => rfl⟩
  · obtain ⟨g1, vs1, g2⟩ := ihT st s1 (some full) p hR hst h1 hl1
    have hR1 := table_ready hR h1 hl1
    obtain ⟨g3, vs2, g4⟩ := ihC s1 s full r tb1 hR1 hl1 h2 hl
    refine ⟨g3.trans g1, vs1 ++ vs2, g2.comp g4 ?_⟩
    intro R' Rm R1 us1 us2 hm hC hmm run1 run2 n' e' ts tb' he ht
    rcases n' with _ | n'
    · exact .fuel
    cases he hne
    have hpk' := hC.peek st.aot pk (by rcases st with ⟨r, e, a, l⟩; have : l = [] := hst; subst this; exact hpk)
    have hE : ¬ (St.mk R' st.ext st.aot []).atEnd = true := fun hx => hne ((nil_of_head hC.head).1 (atEnd_iff.1 hx))
    rw [childLoop, getSt_bind, if_neg hE]
    refine Follow.step hpk' ?_
    dsimp only
    rw [if_pos hc]
    refine Follow.bind (run1 n') fun p' s' hp' hF => ?_
    obtain ⟨hk, hti, hh⟩ := hF
    have hlen : parentLen (some full) < pk.2.parts.length := isChild_length hc
    obtain ⟨k1, hk1, hcl⟩ := table_entry hR h1 hl1 hpk hlen
    obtain ⟨k1', hk1', hcl'⟩ := table_entry (hR.meet hC.head) hp' hh.loss hpk' hlen
    have : k1' = k1 := by
      rw [hk, hk1] at hk1'
      cases hk1'; rfl
    subst this
    rw [hk1] at hr
    obtain ⟨r', hr', ht'⟩ := ht.rawTable hti hcl hcl' hr
    rw [hk1']
    refine follow_lift hr' ?_
    refine Follow.bind (.ok (F := fun _ s => s = s') rfl) fun _ s2 _ hs2 => ?_
    rw [hs2, hh.state]
    have := run2 n' s'.ext (ts ++ us1) r' hh.ext ht'
    rw [List.append_assoc] at this
    exact this

theorem elems_lock {n : Nat} (ihO : ElemsLock Upd Q n) (ihT : TableLock Upd Q n) : ElemsLock Upd Q (n + 1) := by
  intro st s name l l1 hR hst h hl
  rcases aotLoop_step h hl with ⟨rfl, rfl, h0⟩ | ⟨hne, pk, hpk, hc, rfl, rfl⟩ | ⟨hne, pk, hpk, hc, k, t, s1, h1, hl1, h2⟩
  · refine ⟨rfl, [], .stay fun R1 hm => ⟨hm, fun n' e' ts tb' _ ht => ?_⟩⟩
    rcases n' with _ | n'
    · exact .fuel
    cases hm.nil h0
    rw [List.append_nil]
    exact .ok ⟨ht, .self rfl fun hx => absurd h0 hx⟩
  · refine ⟨rfl, [], .stay fun R1 hm => ⟨hm, fun n' e' ts tb' he ht => ?_⟩⟩
    rcases n' with _ | n'
    · exact .fuel
    cases he hne
    have hpk' := hm.peek s.aot pk (by rcases s with ⟨r, e, a, l⟩; have : l = [] := hst; subst this; exact hpk)
    have hE : ¬ (St.mk R1 s.ext s.aot []).atEnd = true := fun hx => hne ((nil_of_head hm.head).1 (atEnd_iff.1 hx))
    rw [aotLoop, getSt_bind, if_neg hE]
    refine Follow.step hpk' ?_
    dsimp only
    rw [if_neg (by rw [hc]; decide), List.append_nil]
    exact .ok ⟨ht, .self rfl fun _ => rfl⟩
  · obtain ⟨g1, vs1, g2⟩ := ihT st s1 (some name) _ hR hst h1 hl1
    have hR1 := table_ready hR h1 hl1
    obtain ⟨g3, vs2, g4⟩ := ihO s1 s name _ l1 hR1 hl1 h2 hl
    refine ⟨g3.trans g1, vs1 ++ vs2, g2.comp g4 ?_⟩
    intro R' Rm R1 us1 us2 hm hC hmm run1 run2 n' e' ts tb' he ht
    rcases n' with _ | n'
    · exact .fuel
    cases he hne
    have hpk' := hC.peek st.aot pk (by rcases st with ⟨r, e, a, l⟩; have : l = [] := hst; subst this; exact hpk)
    have hE : ¬ (St.mk R' st.ext st.aot []).atEnd = true := fun hx => hne ((nil_of_head hC.head).1 (atEnd_iff.1 hx))
    rw [aotLoop, getSt_bind, if_neg hE]
    refine Follow.step hpk' ?_
    dsimp only
    rw [if_pos hc]
    refine Follow.bind (run1 n') fun p' s' hp' hF => ?_
    obtain ⟨hk, hti, hh⟩ := hF
    rcases p' with ⟨k', v'⟩
    have hti : TwinI us1 (.table t) v' := hti
    obtain ⟨t', rfl⟩ : ∃ t', v' = .table t' := by
      have := hti.skel
      rcases v' with _ | _ | _ | _ | _ | _ | _ | _ | _ | _ | _ | tb | _ | _ <;> first | exact ⟨_, rfl⟩ | cases this
    dsimp only
    rw [hh.state]
    have := run2 n' s'.ext (ts ++ us1) _ hh.ext (ht.snoc hti)
    rw [List.append_assoc] at this
    exact this

theorem aot_lock {n : Nat} (ihO : ElemsLock Upd Q n) : AotLock Upd Q (n + 1) := by
  intro st s name first v hR hst h hl
  unfold parseAot at h
  obtain ⟨_, s1, q1, h⟩ := bind_ok h
  cases q1
  obtain ⟨l1, s2, q2, h⟩ := bind_ok h
  obtain ⟨_, s3, q3, h⟩ := bind_ok h
  cases q3
  cases h
  obtain ⟨g1, vs, g2⟩ := ihO { st with aot := st.aot ++ [name] } s2 name [first] l1 hR hst q2 hl
  have g1 : s2.aot = st.aot ++ [name] := g1
  refine ⟨by show s2.aot.dropLast = _; rw [g1, List.dropLast_concat], vs, ?_⟩
  intro ws hws R1 hm
  obtain ⟨R', us, f, c, run⟩ := g2 ws hws R1 ⟨hm.head, hm.peek⟩
  refine ⟨R', us, f, ⟨c.head, c.peek⟩, fun n' e' ts first' he ht => ?_⟩
  rcases n' with _ | n'
  · exact .fuel
  unfold parseAot
  refine Follow.bind (.ok (F := fun _ s => s = ⟨R', e', st.aot ++ [name], []⟩) rfl) fun _ s4 _ hs4 => ?_
  rw [hs4]
  refine Follow.bind (run n' e' ts [first'] he ht.one) fun l1' s5 _ hF => ?_
  refine Follow.bind (.ok (F := fun _ s => s = ⟨s5.rest, s5.ext, s5.aot.dropLast, s5.loss⟩) rfl) fun _ s6 _ hs6 => ?_
  rw [hs6]
  refine .ok ⟨?_, ⟨hF.2.rest, ?_, hF.2.loss, hF.2.ext⟩⟩
  · rw [aotOf_eq, aotOf_eq]; exact hF.1
  · show s5.aot.dropLast = s2.aot.dropLast
    rw [hF.2.aot]

theorem table_lock {n : Nat} (ihB : LoopLock Upd Q n) (ihA : AotLock Upd Q n) : TableLock Upd Q (n + 1) := by
  intro st s parent p hR hst h hl
  obtain ⟨hd, s1, tb, s2, h1, hl1, hn, h2, hl2, hv, h3⟩ := parseTable_step h hl
  rcases st with ⟨R, e, a, l⟩
  have hst : l = [] := hst
  subst hst
  have ha : s1.aot = a := by
    have := parseHeader_does ⟨R, e, a, []⟩
    unfold Does P.wp at this
    rw [h1] at this
    exact this.2.2.1
  obtain ⟨g1, vs1, g2⟩ := ihB s1 s2 hd.key _ tb hl1 h2 hl2
  have hR2 : Ready s2 := (keeps_fact ((tables_keep n).2.1 s1 _ _) h2 hl2 (twin_leaf hd _).cont.clean).ready
  have g1 : s2.aot = a := g1.trans ha
  -- header and entries
  have hpre : ∀ {run : Str → Str → List (Item × Item) → Prop}, (∀ R' R1 us, Meet s2 R1 →
      (∀ n' (F : Key × Item → St → Prop), (∀ tb' s', TwinT us tb tb' → Halts s2 s' R1 → Follow (tableEnd n' hd (hd.below parent) tb' s') F) →
        Follow (parseTable (n' + 1) parent ⟨R', e, a, []⟩) F) → run R' R1 us) → Lock Upd Q vs1 s2 (Meet ⟨R, e, a, []⟩) run := by
    intro run hrun ws hws R1 hm
    obtain ⟨Rm, us, f, c, rn⟩ := g2 ws hws R1 hm
    obtain ⟨R', hm', hh'⟩ := header_run h1 hl1 ha c
    refine ⟨R', us, f, hm', hrun R' R1 us hm ?_⟩
    intro n' F hF
    rw [parseTable_eq]
    refine Follow.step hh' ?_
    rw [hn]
    refine Follow.bind (.ok (F := fun _ s => s = ⟨Rm, s1.ext, a, []⟩) rfl) fun _ s4 _ hs4 => ?_
    rw [hs4]
    have := rn n' s1.ext [] _ (twin_leaf hd (hd.inner (hd.below parent)))
    rw [ha] at this
    refine Follow.bind this fun tb' s5 _ hF5 => ?_
    refine follow_lift (hF5.1.cont.validateAll hv) ?_
    exact hF tb' s5 hF5.1 hF5.2
  have hend : ∀ l, hd.below parent = l → (∀ (n' : Nat) (tb' : Tbl) (st' : St), tableEnd n' hd l tb' st' =
      if hd.newAot st'.aot then (parseAot n' tb' hd.key >>= fun a => pure (hd.lastKey l, a) : P (Key × Item)) st' else .ok (hd.lastKey l, .table tb') st') →
      s.aot = a ∧ ∃ vs, Lock Upd Q vs s (Meet ⟨R, e, a, []⟩) fun R' R1 us => ∀ n',
        Follow (parseTable n' parent ⟨R', e, a, []⟩) fun p' s' => p'.1 = p.1 ∧ TwinI us p.2 p'.2 ∧ Halts s s' R1 := by
    intro l hbl heq
    rw [hbl, heq] at h3
    by_cases hna : hd.newAot s2.aot = true
    · rw [if_pos hna] at h3
      obtain ⟨v, s3, q3, h3⟩ := bind_ok h3
      cases h3
      obtain ⟨g3, vs2, g4⟩ := ihA s2 s hd.key tb v hR2 hl2 q3 hl
      refine ⟨g3.trans g1, vs1 ++ vs2, ?_⟩
      refine Lock.comp (run1 := fun R' Rm us1 => ∀ n' (F : Key × Item → St → Prop), (∀ tb' s', TwinT us1 tb tb' → Halts s2 s' Rm →
        Follow (tableEnd n' hd (hd.below parent) tb' s') F) → Follow (parseTable (n' + 1) parent ⟨R', e, a, []⟩) F) (hpre fun R' R1 us _ hx => hx) g4 ?_
      intro R' Rm R1 us1 us2 hm hC hmm run1 run2 n'
      rcases n' with _ | n'
      · exact .fuel
      refine run1 n' _ fun tb' s' ht hh => ?_
      rw [hbl, heq, hh.aot, if_pos hna]
      refine Follow.bind (F := fun v' s' => TwinI (us1 ++ us2) v v' ∧ Halts s s' R1) ?_ fun v' s5 _ hF => .ok ⟨rfl, hF.1, hF.2⟩
      rw [hh.state]
      exact run2 n' s'.ext us1 tb' hh.ext ht.item
    · rw [if_neg hna] at h3
      cases h3
      refine ⟨g1, vs1, hpre fun R' R1 us hm hrun n' => ?_⟩
      rcases n' with _ | n'
      · exact .fuel
      refine hrun n' _ fun tb' s' ht hh => ?_
      rw [hbl, heq, hh.aot, if_neg hna]
      exact .ok ⟨rfl, ht.item, hh⟩
  rcases hbl : hd.below parent with _ | ⟨k, _ | ⟨q, r⟩⟩
  · exact hend _ hbl fun _ _ _ => rfl
  · exact hend _ hbl fun _ _ _ => rfl
  · rw [hbl] at h3
    have h3 : Res.ok _ s2 = Res.ok p s := h3
    have h4 := (Res.ok.inj h3).2
    subst h4
    have h5 := (Res.ok.inj h3).1
    subst h5
    refine ⟨g1, vs1, hpre fun R' R1 us hm hrun n' => ?_⟩
    rcases n' with _ | n'
    · exact .fuel
    refine hrun n' _ fun tb' s' ht hh => ?_
    rw [hbl]
    unfold tableEnd
    rw [hh.aot]
    exact .ok ⟨rfl, TwinI.chain ht .., hh⟩

/-- reading tables in which the values of some lines are changed -/
theorem tables_lock (hL : LineHyp Upd Q) : ∀ n, TableLock Upd Q n ∧ LoopLock Upd Q n ∧ ChildLock Upd Q n ∧ AotLock Upd Q n ∧ ElemsLock Upd Q n
  | 0 => ⟨fun _ _ _ _ _ _ h => (by cases h), fun _ _ _ _ _ _ h => (by cases h), fun _ _ _ _ _ _ _ h => (by cases h), fun _ _ _ _ _ _ _ h => (by cases h),
      fun _ _ _ _ _ _ _ h => (by cases h)⟩
  | n + 1 => by
    obtain ⟨ihT, ihB, ihC, ihA, ihO⟩ := tables_lock hL n
    exact ⟨table_lock ihB ihA, loop_lock hL ihB ihC, child_lock ihC ihT, aot_lock ihO, elems_lock ihO ihT⟩

end Tomlkit
