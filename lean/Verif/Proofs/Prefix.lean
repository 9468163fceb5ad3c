import Verif.Proofs.LockDoc
import Verif.Proofs.OverTables
/-!
# The same run with another text behind

What is read without loss is read in the same way when the text behind it is another one, as long as it begins with the same character and its header is the same.
-/
namespace Tomlkit
open _root_.Spec Tomlkit.Spec

/-- the text of a header, without its indentation -/
def Header.line (h : Header) : Str := headOpen h.isAot ++ (h.key.asString ++ (headClose h.isAot ++ (h.cws ++ h.comment ++ h.trail)))

theorem HeaderIs.line {st s : St} {h : Header} (hh : HeaderIs st h s) : st.rest = h.line ++ s.rest := by
  rw [hh.text]
  simp only [Header.line, List.append_assoc]

/-- a header read from another text; the text is explicit -/
theorem header_front {R e : Str} {a : List Key} {h : Header} {s : St} (hh : parseHeader ⟨R, e, a, []⟩ = .ok h s) (hl : s.loss = []) (ha : s.aot = a)
    {R1 : Str} (hR : R1.head? = s.rest.head?) : Meet ⟨R, e, a, []⟩ (h.line ++ R1) ∧ parseHeader ⟨h.line ++ R1, e, a, []⟩ = .ok h ⟨R1, s.ext, a, []⟩ := by
  obtain ⟨R', m, h2⟩ := header_run hh hl ha hR
  have : R' = h.line ++ R1 := (keeps_fact (parseHeader_keeps _) h2 rfl).line
  rw [← this]
  exact ⟨m, h2⟩

/-- `u` is read with any fitting text behind it -/
def Front (u : Str) (s : St) (C : Str → Prop) (run : Str → Str → Prop) : Prop := ∀ R1, Meet s R1 → C (u ++ R1) ∧ run (u ++ R1) R1

def LoopFront (n : Nat) : Prop := ∀ (st s : St) (full : Key) (tb tb1 : Tbl), st.loss = [] → tableLoop n full tb st = .ok tb1 s → s.loss = [] →
  s.aot = st.aot ∧ ∃ u, st.rest = u ++ s.rest ∧ Front u s (fun R' => R'.head? = st.rest.head?) fun R' R1 => ∀ n' e',
    Follow (tableLoop n' full tb ⟨R', e', st.aot, []⟩) fun tb' s' => tb' = tb1 ∧ Halts s s' R1

def ChildFront (n : Nat) : Prop := ∀ (st s : St) (full : Key) (tb tb1 : Tbl), Ready st → st.loss = [] → childLoop n full tb st = .ok tb1 s → s.loss = [] →
  s.aot = st.aot ∧ ∃ u, st.rest = u ++ s.rest ∧ Front u s (Meet st) fun R' R1 => ∀ n' e', (st.rest ≠ [] → e' = st.ext) →
    Follow (childLoop n' full tb ⟨R', e', st.aot, []⟩) fun tb' s' => tb' = tb1 ∧ Halts s s' R1

def TableFront (n : Nat) : Prop := ∀ (st s : St) (parent : Option Key) (p : Key × Item), Ready st → st.loss = [] → parseTable n parent st = .ok p s → s.loss = [] →
  s.aot = st.aot ∧ ∃ u, st.rest = u ++ s.rest ∧ Front u s (Meet st) fun R' R1 => ∀ n',
    Follow (parseTable n' parent ⟨R', st.ext, st.aot, []⟩) fun p' s' => p' = p ∧ Halts s s' R1

def AotFront (n : Nat) : Prop := ∀ (st s : St) (name : Key) (first : Tbl) (v : Item), Ready st → st.loss = [] → parseAot n first name st = .ok v s → s.loss = [] →
  s.aot = st.aot ∧ ∃ u, st.rest = u ++ s.rest ∧ Front u s (Meet st) fun R' R1 => ∀ n' e', (st.rest ≠ [] → e' = st.ext) →
    Follow (parseAot n' first name ⟨R', e', st.aot, []⟩) fun v' s' => v' = v ∧ Halts s s' R1

def ElemsFront (n : Nat) : Prop := ∀ (st s : St) (name : Key) (l l1 : List Tbl), Ready st → st.loss = [] → aotLoop n name l st = .ok l1 s → s.loss = [] →
  s.aot = st.aot ∧ ∃ u, st.rest = u ++ s.rest ∧ Front u s (Meet st) fun R' R1 => ∀ n' e', (st.rest ≠ [] → e' = st.ext) →
    Follow (aotLoop n' name l ⟨R', e', st.aot, []⟩) fun l' s' => l' = l1 ∧ Halts s s' R1

theorem Front.comp {u1 u2 : Str} {sm s : St} {C : Str → Prop} {run1 run2 run : Str → Str → Prop} (h1 : Front u1 sm C run1) (h2 : Front u2 s (Meet sm) run2)
    (hr : ∀ R' Rm R1, Meet s R1 → C R' → Meet sm Rm → run1 R' Rm → run2 Rm R1 → run R' R1) : Front (u1 ++ u2) s C run := by
  intro R1 hm
  obtain ⟨c2, r2⟩ := h2 R1 hm
  obtain ⟨c1, r1⟩ := h1 _ c2
  rw [List.append_assoc]
  exact ⟨c1, hr _ _ _ hm c1 c2 r1 r2⟩

theorem Front.stay {s : St} {C : Str → Prop} {run : Str → Str → Prop} (h : ∀ R1, Meet s R1 → C R1 ∧ run R1 R1) : Front [] s C run := h

theorem loop_front {n : Nat} (ihB : LoopFront n) (ihC : ChildFront n) : LoopFront (n + 1) := by
  intro st s full tb tb1 hst h hl
  rcases tableLoop_step h hl with ⟨rfl, rfl, h0⟩ | ⟨hne, s1, h1, hl1, hc, h2⟩ | ⟨hne, k, v, s1, h1, hl1, h2⟩
  · refine ⟨rfl, [], rfl, .stay fun R1 hm => ⟨hm.head, fun n' e' => ?_⟩⟩
    rcases n' with _ | n'
    · exact .fuel
    cases hm.nil h0
    exact .ok ⟨rfl, .self rfl fun hx => absurd h0 hx⟩
  · rcases st with ⟨R, e, a, l⟩
    have hst : l = [] := hst
    subst hst
    have ha := parseItem_aot h1
    have hR : Ready s1 := .inr ((keeps_fact (parseItem_keeps _) h1 hl1).stop rfl).2.2
    obtain ⟨g1, u2, hu2, g2⟩ := ihC s1 s full tb tb1 hR hl1 h2 hl
    obtain ⟨u, hu⟩ := (mono_parseItem _ _ _ h1).1
    have hu : u ++ s1.rest = R := hu
    refine ⟨g1.trans ha, u ++ u2, by show R = _; rw [← hu, hu2, List.append_assoc], fun R1 hm => ?_⟩
    obtain ⟨c, run⟩ := g2 R1 hm
    obtain ⟨u', hu', h3⟩ := local_run (fun _ _ _ _ _ _ _ => Rel.parseItem) mono_parseItem h1 hl1 ha c.head
    obtain rfl : u' = u := by rw [← hu] at hu'; exact (List.append_cancel_right hu').symm
    rw [List.append_assoc]
    generalize u2 ++ R1 = Rm at *
    have hhd : (u' ++ Rm).head? = R.head? := by rw [← hu]; exact head_append c.head
    refine ⟨hhd, fun n' e' => ?_⟩
    rcases n' with _ | n'
    · exact .fuel
    have h3 : parseItem ⟨u' ++ Rm, e', a, []⟩ = .ok none ⟨Rm, s1.ext, a, []⟩ := h3
    have hE : ¬ (St.mk (u' ++ Rm) e' a []).atEnd = true := fun hx => hne ((nil_of_head hhd).1 (atEnd_iff.1 hx))
    have hcur : (St.mk Rm s1.ext a []).cur = 91 := (cur_of_head c.head).trans hc
    rw [tableLoop, getSt_bind, if_neg hE]
    refine Follow.step h3 ?_
    dsimp only
    rw [getSt_bind, if_pos hcur]
    have := run n' s1.ext (fun _ => rfl)
    rw [ha] at this
    exact this
  · rcases st with ⟨R, e, a, l⟩
    have hst : l = [] := hst
    subst hst
    have ha : s1.aot = a := parseItem_aot h1
    obtain ⟨u, hu⟩ := (mono_parseItem _ _ _ h1).1
    have hu : u ++ s1.rest = R := hu
    have key : ∀ tb2, tableLoop n full tb2 s1 = .ok tb1 s →
        ((∃ c', mergeWs tb.cont v = some c' ∧ tb2 = tb.setCont c') ∨ (mergeWs tb.cont v = none ∧ tb.rawAppend k v = .ok (tb2, false))) →
        s.aot = a ∧ ∃ u, R = u ++ s.rest ∧ Front u s (fun R' => R'.head? = R.head?) fun R' R1 => ∀ n' e',
          Follow (tableLoop n' full tb ⟨R', e', a, []⟩) fun tb' s' => tb' = tb1 ∧ Halts s s' R1 := by
      intro tb2 h2 htw
      obtain ⟨g1, u2, hu2, g2⟩ := ihB s1 s full tb2 tb1 hl1 h2 hl
      refine ⟨g1.trans ha, u ++ u2, by rw [← hu, hu2, List.append_assoc], fun R1 hm => ?_⟩
      obtain ⟨c, run⟩ := g2 R1 hm
      obtain ⟨u', hu', h3⟩ := local_run (fun _ _ _ _ _ _ _ => Rel.parseItem) mono_parseItem h1 hl1 ha c
      obtain rfl : u' = u := by rw [← hu] at hu'; exact (List.append_cancel_right hu').symm
      rw [List.append_assoc]
      generalize u2 ++ R1 = Rm at *
      have hhd : (u' ++ Rm).head? = R.head? := by rw [← hu]; exact head_append c
      refine ⟨hhd, fun n' e' => ?_⟩
      rcases n' with _ | n'
      · exact .fuel
      have h3 : parseItem ⟨u' ++ Rm, e', a, []⟩ = .ok (some (k, v)) ⟨Rm, s1.ext, a, []⟩ := h3
      have hE : ¬ (St.mk (u' ++ Rm) e' a []).atEnd = true := fun hx => hne ((nil_of_head hhd).1 (atEnd_iff.1 hx))
      rw [tableLoop, getSt_bind, if_neg hE]
      refine Follow.step h3 ?_
      dsimp only
      have := run n' s1.ext
      rw [ha] at this
      rcases htw with ⟨c', hm', rfl⟩ | ⟨hm', hr'⟩
      · rw [hm']
        exact this
      · rw [hm']
        dsimp only
        refine follow_lift hr' ?_
        exact Follow.step (s := ⟨Rm, s1.ext, a, []⟩) (a := ()) rfl this
    rcases h2 with ⟨c, hm, h2⟩ | ⟨hm, r, hr, h2⟩
    · exact key _ h2 (.inl ⟨c, hm, rfl⟩)
    · exact key _ h2 (.inr ⟨hm, hr⟩)

theorem child_front {n : Nat} (ihC : ChildFront n) (ihT : TableFront n) : ChildFront (n + 1) := by
  intro st s full tb tb1 hR hst h hl
  rcases childLoop_step h hl with ⟨rfl, rfl, h0⟩ | ⟨hne, pk, hpk, hc, rfl, rfl⟩ | ⟨hne, pk, hpk, hc, p, s1, h1, hl1, r, hr, h2⟩
  · refine ⟨rfl, [], rfl, .stay fun R1 hm => ⟨hm, fun n' e' _ => ?_⟩⟩
    rcases n' with _ | n'
    · exact .fuel
    cases hm.nil h0
    exact .ok ⟨rfl, .self rfl fun hx => absurd h0 hx⟩
  · refine ⟨rfl, [], rfl, .stay fun R1 hm => ⟨hm, fun n' e' he => ?_⟩⟩
    rcases n' with _ | n'
    · exact .fuel
    cases he hne
    have hpk' := hm.peek s.aot pk (by rcases s with ⟨r, e, a, l⟩; have : l = [] := hst; subst this; exact hpk)
    have hE : ¬ (St.mk R1 s.ext s.aot []).atEnd = true := fun hx => hne ((nil_of_head hm.head).1 (atEnd_iff.1 hx))
    rw [childLoop, getSt_bind, if_neg hE]
    refine Follow.step hpk' ?_
    dsimp only
    rw [if_neg (by rw [hc]; decide)]
    exact .ok ⟨rfl, .self rfl fun _ => rfl⟩
  · obtain ⟨g1, u1, hu1, g2⟩ := ihT st s1 (some full) p hR hst h1 hl1
    have hR1 := table_ready hR h1 hl1
    obtain ⟨g3, u2, hu2, g4⟩ := ihC s1 s full r tb1 hR1 hl1 h2 hl
    refine ⟨g3.trans g1, u1 ++ u2, by rw [hu1, hu2, List.append_assoc], g2.comp g4 ?_⟩
    intro R' Rm R1 hm hC hmm run1 run2 n' e' he
    rcases n' with _ | n'
    · exact .fuel
    cases he hne
    have hpk' := hC.peek st.aot pk (by rcases st with ⟨r, e, a, l⟩; have : l = [] := hst; subst this; exact hpk)
    have hE : ¬ (St.mk R' st.ext st.aot []).atEnd = true := fun hx => hne ((nil_of_head hC.head).1 (atEnd_iff.1 hx))
    rw [childLoop, getSt_bind, if_neg hE]
    refine Follow.step hpk' ?_
    dsimp only
    rw [if_pos hc]
    refine Follow.bind (run1 n') fun p' s' hp' hF => ?_
    obtain ⟨rfl, hh⟩ := hF
    refine follow_lift hr ?_
    refine Follow.bind (.ok (F := fun _ s => s = s') rfl) fun _ s2 _ hs2 => ?_
    rw [hs2, hh.state]
    exact run2 n' s'.ext hh.ext

theorem elems_front {n : Nat} (ihO : ElemsFront n) (ihT : TableFront n) : ElemsFront (n + 1) := by
  intro st s name l l1 hR hst h hl
  rcases aotLoop_step h hl with ⟨rfl, rfl, h0⟩ | ⟨hne, pk, hpk, hc, rfl, rfl⟩ | ⟨hne, pk, hpk, hc, k, t, s1, h1, hl1, h2⟩
  · refine ⟨rfl, [], rfl, .stay fun R1 hm => ⟨hm, fun n' e' _ => ?_⟩⟩
    rcases n' with _ | n'
    · exact .fuel
    cases hm.nil h0
    exact .ok ⟨rfl, .self rfl fun hx => absurd h0 hx⟩
  · refine ⟨rfl, [], rfl, .stay fun R1 hm => ⟨hm, fun n' e' he => ?_⟩⟩
    rcases n' with _ | n'
    · exact .fuel
    cases he hne
    have hpk' := hm.peek s.aot pk (by rcases s with ⟨r, e, a, l⟩; have : l = [] := hst; subst this; exact hpk)
    have hE : ¬ (St.mk R1 s.ext s.aot []).atEnd = true := fun hx => hne ((nil_of_head hm.head).1 (atEnd_iff.1 hx))
    rw [aotLoop, getSt_bind, if_neg hE]
    refine Follow.step hpk' ?_
    dsimp only
    rw [if_neg (by rw [hc]; decide)]
    exact .ok ⟨rfl, .self rfl fun _ => rfl⟩
  · obtain ⟨g1, u1, hu1, g2⟩ := ihT st s1 (some name) _ hR hst h1 hl1
    have hR1 := table_ready hR h1 hl1
    obtain ⟨g3, u2, hu2, g4⟩ := ihO s1 s name _ l1 hR1 hl1 h2 hl
    refine ⟨g3.trans g1, u1 ++ u2, by rw [hu1, hu2, List.append_assoc], g2.comp g4 ?_⟩
    intro R' Rm R1 hm hC hmm run1 run2 n' e' he
    rcases n' with _ | n'
    · exact .fuel
    cases he hne
    have hpk' := hC.peek st.aot pk (by rcases st with ⟨r, e, a, l⟩; have : l = [] := hst; subst this; exact hpk)
    have hE : ¬ (St.mk R' st.ext st.aot []).atEnd = true := fun hx => hne ((nil_of_head hC.head).1 (atEnd_iff.1 hx))
    rw [aotLoop, getSt_bind, if_neg hE]
    refine Follow.step hpk' ?_
    dsimp only
    rw [if_pos hc]
    refine Follow.bind (run1 n') fun p' s' hp' hF => ?_
    obtain ⟨rfl, hh⟩ := hF
    dsimp only
    rw [hh.state]
    exact run2 n' s'.ext hh.ext

theorem aot_front {n : Nat} (ihO : ElemsFront n) : AotFront (n + 1) := by
  intro st s name first v hR hst h hl
  unfold parseAot at h
  obtain ⟨_, s1, q1, h⟩ := bind_ok h
  cases q1
  obtain ⟨l1, s2, q2, h⟩ := bind_ok h
  obtain ⟨_, s3, q3, h⟩ := bind_ok h
  cases q3
  cases h
  obtain ⟨g1, u, hu, g2⟩ := ihO { st with aot := st.aot ++ [name] } s2 name [first] l1 hR hst q2 hl
  have g1 : s2.aot = st.aot ++ [name] := g1
  refine ⟨by show s2.aot.dropLast = _; rw [g1, List.dropLast_concat], u, hu, ?_⟩
  intro R1 hm
  obtain ⟨c, run⟩ := g2 R1 ⟨hm.head, hm.peek⟩
  refine ⟨⟨c.head, c.peek⟩, fun n' e' he => ?_⟩
  rcases n' with _ | n'
  · exact .fuel
  unfold parseAot
  refine Follow.bind (.ok (F := fun _ s => s = ⟨u ++ R1, e', st.aot ++ [name], []⟩) rfl) fun _ s4 _ hs4 => ?_
  rw [hs4]
  refine Follow.bind (run n' e' he) fun l1' s5 _ hF => ?_
  refine Follow.bind (.ok (F := fun _ s => s = ⟨s5.rest, s5.ext, s5.aot.dropLast, s5.loss⟩) rfl) fun _ s6 _ hs6 => ?_
  rw [hs6, hF.1]
  refine .ok ⟨rfl, ⟨hF.2.rest, ?_, hF.2.loss, hF.2.ext⟩⟩
  show s5.aot.dropLast = s2.aot.dropLast
  rw [hF.2.aot]

theorem table_front {n : Nat} (ihB : LoopFront n) (ihA : AotFront n) : TableFront (n + 1) := by
  intro st s parent p hR hst h hl
  obtain ⟨hd, s1, tb, s2, h1, hl1, hn, h2, hl2, hv, h3⟩ := parseTable_step h hl
  rcases st with ⟨R, e, a, l⟩
  have hst : l = [] := hst
  subst hst
  have ha : s1.aot = a := by
    have := parseHeader_does ⟨R, e, a, []⟩
    unfold Does P.wp at this
    rw [h1] at this
    exact this.2.2.1
  have hline : R = hd.line ++ s1.rest := (keeps_fact (parseHeader_keeps _) h1 hl1).line
  obtain ⟨g1, u1, hu1, g2⟩ := ihB s1 s2 hd.key _ tb hl1 h2 hl2
  have hR2 : Ready s2 := (keeps_fact ((tables_keep n).2.1 s1 _ _) h2 hl2 (twin_leaf hd _).cont.clean).ready
  have g1 : s2.aot = a := g1.trans ha
  have hR12 : R = (hd.line ++ u1) ++ s2.rest := by rw [hline, hu1, List.append_assoc]
  -- header and entries
  have hpre : Front (hd.line ++ u1) s2 (Meet ⟨R, e, a, []⟩) fun R' R1 =>
      ∀ n' (F : Key × Item → St → Prop), (∀ s', Halts s2 s' R1 → Follow (tableEnd n' hd (hd.below parent) tb s') F) →
        Follow (parseTable (n' + 1) parent ⟨R', e, a, []⟩) F := by
    intro R1 hm
    obtain ⟨c, rn⟩ := g2 R1 hm
    obtain ⟨hm', hh'⟩ := header_front h1 hl1 ha c
    rw [List.append_assoc]
    generalize u1 ++ R1 = Rm at *
    refine ⟨hm', ?_⟩
    intro n' F hF
    rw [parseTable_eq]
    refine Follow.step hh' ?_
    rw [hn]
    refine Follow.bind (.ok (F := fun _ s => s = ⟨Rm, s1.ext, a, []⟩) rfl) fun _ s4 _ hs4 => ?_
    rw [hs4]
    have := rn n' s1.ext
    rw [ha] at this
    refine Follow.bind this fun tb' s5 _ hF5 => ?_
    obtain ⟨rfl, hh5⟩ := hF5
    exact follow_lift hv (hF s5 hh5)
  have hend : ∀ l, hd.below parent = l → (∀ (n' : Nat) (tb' : Tbl) (st' : St), tableEnd n' hd l tb' st' =
      if hd.newAot st'.aot then (parseAot n' tb' hd.key >>= fun a => pure (hd.lastKey l, a) : P (Key × Item)) st' else .ok (hd.lastKey l, .table tb') st') →
      s.aot = a ∧ ∃ u, R = u ++ s.rest ∧ Front u s (Meet ⟨R, e, a, []⟩) fun R' R1 => ∀ n',
        Follow (parseTable n' parent ⟨R', e, a, []⟩) fun p' s' => p' = p ∧ Halts s s' R1 := by
    intro l hbl heq
    rw [hbl, heq] at h3
    by_cases hna : hd.newAot s2.aot = true
    · rw [if_pos hna] at h3
      obtain ⟨v, s3, q3, h3⟩ := bind_ok h3
      cases h3
      obtain ⟨g3, u2, hu2, g4⟩ := ihA s2 s hd.key tb v hR2 hl2 q3 hl
      refine ⟨g3.trans g1, (hd.line ++ u1) ++ u2, by rw [hR12, hu2, ← List.append_assoc], hpre.comp g4 ?_⟩
      intro R' Rm R1 hm hC hmm run1 run2 n'
      rcases n' with _ | n'
      · exact .fuel
      refine run1 n' _ fun s' hh => ?_
      rw [hbl, heq, hh.aot, if_pos hna]
      refine Follow.bind (F := fun v' s' => v' = v ∧ Halts s s' R1) ?_ fun v' s5 _ hF => .ok ⟨by rw [hF.1], hF.2⟩
      rw [hh.state]
      exact run2 n' s'.ext hh.ext
    · rw [if_neg hna] at h3
      cases h3
      refine ⟨g1, hd.line ++ u1, hR12, fun R1 hm => ?_⟩
      obtain ⟨c, hrun⟩ := hpre R1 hm
      refine ⟨c, fun n' => ?_⟩
      rcases n' with _ | n'
      · exact .fuel
      refine hrun n' _ fun s' hh => ?_
      rw [hbl, heq, hh.aot, if_neg hna]
      exact .ok ⟨rfl, hh⟩
  rcases hbl : hd.below parent with _ | ⟨k, _ | ⟨q, r⟩⟩
  · exact hend _ hbl fun _ _ _ => rfl
  · exact hend _ hbl fun _ _ _ => rfl
  · rw [hbl] at h3
    have h3 : Res.ok _ s2 = Res.ok p s := h3
    have h4 := (Res.ok.inj h3).2
    subst h4
    have h5 := (Res.ok.inj h3).1
    subst h5
    refine ⟨g1, hd.line ++ u1, hR12, fun R1 hm => ?_⟩
    obtain ⟨c, hrun⟩ := hpre R1 hm
    refine ⟨c, fun n' => ?_⟩
    rcases n' with _ | n'
    · exact .fuel
    refine hrun n' _ fun s' hh => ?_
    rw [hbl]
    unfold tableEnd
    rw [hh.aot]
    exact .ok ⟨rfl, hh⟩

/-- tables are read in the same way with another text behind them -/
theorem tables_front : ∀ n, TableFront n ∧ LoopFront n ∧ ChildFront n ∧ AotFront n ∧ ElemsFront n
  | 0 => ⟨fun _ _ _ _ _ _ h => (by cases h), fun _ _ _ _ _ _ h => (by cases h), fun _ _ _ _ _ _ _ h => (by cases h), fun _ _ _ _ _ _ _ h => (by cases h),
      fun _ _ _ _ _ _ _ h => (by cases h)⟩
  | n + 1 => by
    obtain ⟨ihT, ihB, ihC, ihA, ihO⟩ := tables_front n
    exact ⟨table_front ihB ihA, loop_front ihB ihC, child_front ihC ihT, aot_front ihO, elems_front ihO ihT⟩

/-- the lines at the top of a document are read in the same way with another text behind them -/
theorem topItems_front : ∀ (n : Nat) (st s : St) (c c1 : Cont), st.ext = [] → st.loss = [] → topItems n c st = .ok c1 s → s.loss = [] →
    s.aot = st.aot ∧ ∃ u, st.rest = u ++ s.rest ∧ Front u s (fun R' => R'.head? = st.rest.head?) fun R' R1 => ∀ n',
      Follow (topItems n' c ⟨R', [], st.aot, []⟩) fun c' s' => c' = c1 ∧ Halts s s' R1 := by
  intro n
  induction n with
  | zero => intro st s c c1 _ _ h; cases h
  | succ n ih =>
    intro st s c c1 hext hst h hl
    rcases st with ⟨R, e, a, l⟩
    have hst : l = [] := hst
    subst hst
    have hext : e = [] := hext
    subst hext
    rcases topItems_turn h hl with ⟨hc, rfl, rfl⟩ | ⟨hc, h1, rfl⟩ | ⟨hc, k, v, s1, h1, hl1, h2⟩
    · refine ⟨rfl, [], rfl, .stay fun R1 hm => ⟨hm.head, fun n' => ?_⟩⟩
      rcases n' with _ | n'
      · exact .fuel
      rw [topItems, getSt_bind, if_pos ((atEnd_head hm.head).trans hc)]
      exact .ok ⟨rfl, .self rfl fun _ => rfl⟩
    · have ha : s.aot = a := parseItem_aot h1
      obtain ⟨u, hu⟩ := (mono_parseItem _ _ _ h1).1
      have hu : u ++ s.rest = R := hu
      refine ⟨ha, u, hu.symm, fun R1 hm => ?_⟩
      obtain ⟨u', hu', h3⟩ := local_run (fun _ _ _ _ _ _ _ => Rel.parseItem) mono_parseItem h1 hl ha hm.head
      obtain rfl : u' = u := by rw [← hu] at hu'; exact (List.append_cancel_right hu').symm
      have hhd : (u' ++ R1).head? = R.head? := by rw [← hu]; exact head_append hm.head
      refine ⟨hhd, fun n' => ?_⟩
      rcases n' with _ | n'
      · exact .fuel
      rw [topItems, getSt_bind, if_neg (by rw [atEnd_head (e := []) (a := a) (l := []) hhd, hc]; decide)]
      refine Follow.step h3 ?_
      exact .ok ⟨rfl, .self ha.symm fun _ => rfl⟩
    · have ha : s1.aot = a := parseItem_aot h1
      obtain ⟨u, hu⟩ := (mono_parseItem _ _ _ h1).1
      have hu : u ++ s1.rest = R := hu
      have key : ∀ c2, topItems n c2 ⟨s1.rest, [], s1.aot, []⟩ = .ok c1 s →
          ((if (k.map Key.isMulti).getD false = true then none else mergeWs c v) = some c2 ∨
            ((if (k.map Key.isMulti).getD false = true then none else mergeWs c v) = none ∧ Cont.append true c k v = .ok (c2, false))) →
          s.aot = a ∧ ∃ u, R = u ++ s.rest ∧ Front u s (fun R' => R'.head? = R.head?) fun R' R1 => ∀ n',
            Follow (topItems n' c ⟨R', [], a, []⟩) fun c' s' => c' = c1 ∧ Halts s s' R1 := by
        intro c2 h2 htw
        obtain ⟨g1, u2, hu2, g2⟩ := ih ⟨s1.rest, [], s1.aot, []⟩ s c2 c1 rfl rfl h2 hl
        have hu2 : s1.rest = u2 ++ s.rest := hu2
        refine ⟨g1.trans ha, u ++ u2, by rw [← hu, hu2, List.append_assoc], fun R1 hm => ?_⟩
        obtain ⟨c2', run⟩ := g2 R1 hm
        obtain ⟨u', hu', h3⟩ := local_run (fun _ _ _ _ _ _ _ => Rel.parseItem) mono_parseItem h1 hl1 ha c2'
        obtain rfl : u' = u := by rw [← hu] at hu'; exact (List.append_cancel_right hu').symm
        rw [List.append_assoc]
        generalize u2 ++ R1 = Rm at *
        have hhd : (u' ++ Rm).head? = R.head? := by rw [← hu]; exact head_append c2'
        refine ⟨hhd, fun n' => ?_⟩
        rcases n' with _ | n'
        · exact .fuel
        have h3 : parseItem ⟨u' ++ Rm, [], a, []⟩ = .ok (some (k, v)) ⟨Rm, s1.ext, a, []⟩ := h3
        have run := run n'
        simp only at run
        rw [ha] at run
        rw [topItems, getSt_bind, if_neg (by rw [atEnd_head (e := []) (a := a) (l := []) hhd, hc]; decide)]
        refine Follow.step h3 ?_
        dsimp only
        rcases htw with hm' | ⟨hm', hr'⟩
        · rw [hm']
          dsimp only
          exact Follow.step (s := ⟨Rm, [], a, []⟩) (a := ()) rfl run
        · rw [hm']
          dsimp only
          refine follow_wrap hr' ?_
          refine Follow.step (s := ⟨Rm, s1.ext, a, []⟩) (a := ()) rfl ?_
          exact Follow.step (s := ⟨Rm, [], a, []⟩) (a := ()) rfl run
      rcases h2 with ⟨c2, hm, h2⟩ | ⟨hm, c2, hr, h2⟩
      · exact key _ h2 (.inl hm)
      · exact key _ h2 (.inr ⟨hm, hr⟩)

end Tomlkit
