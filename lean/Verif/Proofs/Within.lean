import Verif.Proofs.TableAny
import Verif.Proofs.Above
/-!
# A document read with other lines in one of its tables
-/
namespace Tomlkit
open _root_.Spec Tomlkit.Spec

/-- no entry is a table with a header -/
def Headless (c : Cont) : Prop := ∀ e ∈ c.body, ∀ T, e.v = .table T → T.superFlag ≠ some false

theorem dottedChain_flag {v : Item} {sep : Str} {r : List SKey} {nm : Option Str} {t : Tbl} (h : dottedChain nm r sep v = some t) : t.superFlag = some true := by
  rcases r with _ | ⟨k, _ | ⟨k2, r⟩⟩
  · cases h
  · simp only [dottedChain, Option.some.injEq] at h; subst h; rfl
  · simp only [dottedChain, Option.map_eq_some_iff] at h
    obtain ⟨t', _, rfl⟩ := h
    rfl

theorem headless_snoc {c c' : Cont} {e : Entry} (h : Headless c) (hb : c'.body = c.body ++ [e]) (he : ∀ T, e.v = .table T → T.superFlag ≠ some false) : Headless c' := by
  intro x hx
  rw [hb] at hx
  rcases List.mem_append.1 hx with hx | hx
  · exact h x hx
  · rw [List.mem_singleton] at hx; subst hx; exact he

/-- the lines at the top of the document make no table with a header -/
theorem topItems_headless : ∀ (n : Nat) {c c' : Cont} {st s : St}, topItems n c st = .ok c' s → s.loss = [] → c.parsed = true → Headless c → Headless c' := by
  intro n
  induction n with
  | zero => intro c c' st s h; cases h
  | succ n ih =>
    intro c c' st s h hl hp hH
    rcases topItems_turn h hl with ⟨_, rfl, rfl⟩ | ⟨_, _, rfl⟩ | ⟨_, k, v, s1, h1, hl1, h2⟩
    · exact hH
    · exact hH
    · have hi := keeps_fact (parseItem_keeps st) h1 hl1
      rcases h2 with ⟨c1, hm, h2⟩ | ⟨hm, c1, hap, h2⟩
      · have hm : mergeWs c v = some c1 := by
          split at hm
          · cases hm
          · exact hm
        refine ih h2 hl ?_ ?_
        · unfold mergeWs at hm
          split at hm
          · cases hm; exact hp
          · cases hm
        · unfold mergeWs at hm
          split at hm
          · cases hm
            intro x hx
            rcases List.mem_append.1 hx with hx | hx
            · exact hH x (List.dropLast_subset _ hx)
            · rw [List.mem_singleton] at hx; subst hx
              intro T h0; cases h0
          · cases hm
      · rcases k with _ | k
        · obtain ⟨_, _, h4⟩ := hi.blank v rfl
          obtain ⟨hb, hp', _⟩ := append_ws hp h4 hap
          refine ih h2 hl hp' (headless_snoc hH hb fun T h0 => ?_)
          have h0 : v = .table T := h0
          rw [h0] at h4; cases h4
        · obtain ⟨key, u, sep, hpair⟩ := hi.pair k v rfl
          obtain ⟨e, hne, hb, hp', _⟩ := append_value hp hpair.simple hap
          refine ih h2 hl hp' (headless_snoc hH hb fun T h0 => ?_)
          cases hne with
          | one k2 _ =>
            have h0 : v = .table T := h0
            have := hpair.simple
            rw [h0] at this; cases this
          | chain k2 r t nm _ _ ht =>
            have h0 := Item.table.inj h0
            rw [← h0]
            show t.superFlag ≠ _
            rw [dottedChain_flag ht]
            exact fun h => by cases h

/-- a table with a new name is put at the end -/
theorem append_table_new {c d : Cont} {k : SKey} {T : Tbl} (hp : c.parsed = true) (hk : mapGet k.key c.map = none) (hn : T.name.isSome = true)
    (hr : c.rawAppend (some k) (.table T) = .ok d) (C : Cont) :
    Cont.append true c (some (.single k)) (.table (T.setCont C)) = .ok (d.setE c.body.length (.mk (some k) (.table (T.setCont C))), false) := by
  have hw : c.prepare (some k) (.table (T.setCont C)) = .ok (.table (T.setCont C)) := by
    have hn' : (Item.table (T.setCont C)).name?.isNone = false := by
      obtain ⟨x, hx⟩ := Option.isSome_iff_exists.1 hn
      have : (Item.table (T.setCont C)).name? = some x := by cases T; exact hx
      rw [this]; rfl
    unfold Cont.prepare
    rw [if_neg (by rw [hn']; simp)]
    dsimp only
    rw [hp]
    simp
  rw [append_new hw hk]
  unfold Cont.appendTail
  dsimp only
  rw [if_neg (by rw [hp]; simp)]
  unfold Cont.rawAppend at hr ⊢
  dsimp only at hr ⊢
  rw [hk] at hr ⊢
  dsimp only at hr ⊢
  cases hr
  unfold Cont.setE
  simp only [Cont.body_mk, Cont.map_mk, Cont.dict_mk, Cont.parsed_mk, Cont.tableKeys_mk, Except.map]
  rw [List.set_append_right _ _ (Nat.le_refl _), Nat.sub_self]
  rfl


/-- the text above the table, its header, its lines and what comes below -/
structure Cut (s : Str) (d1 : Cont) (i : Nat) (key : Option SKey) (T : Tbl) (c t : Cont) (A p ln Tx v B : Str) : Prop where
  over : Over c t T.cont
  inv : Inv c True
  shut : Tx ≠ [] → PreShut c.body
  good : t.Good PW
  tables : ∀ e ∈ t.body, e.v.isTableLike = true
  below : Tx = v ++ B
  sub : (Ctx.tbl false false p).text t.body = v
  old : s = A ++ (ln ++ (entsStr none c.body ++ Tx))
  above : A = Ctx.top.text (d1.body.take i) ++ T.trivia.indent
  after : B = Ctx.top.text (d1.body.drop (i + 1))
  entry : ∀ C, Ctx.top.entry (.mk key (.table (T.setCont C))) = T.trivia.indent ++ ln ++ (Ctx.tbl false false p).text C.body

theorem setE_take {c : Cont} {i : Nat} (hi : i < c.body.length) (e : Entry) : (c.setE i e).body = c.body.take i ++ e :: c.body.drop (i + 1) := by
  rw [Cont.setE_body, List.set_eq_take_append_cons_drop, if_pos hi]

theorem within_pre {s : Str} {d1 : Cont} {st : St} {k : Str} {i : Nat} {key : Option SKey} {T : Tbl} (h : preDoc s (.init s) = .ok d1 st) (hl : st.loss = []) (hn : NoLoneCr s)
    (ho : OneTable d1 k i key T) (hT : T.superFlag = some false) (hnl : hasNl T.trivia.trail = true) (hd : ∀ e ∈ T.cont.body, isDottedKey e.key = false) :
    ∃ c t A p ln Tx v B, Cut s d1 i key T c t A p ln Tx v B ∧
      ∀ X l cs, FLines X Tx l cs → Solids l → (∀ k, mapGet k t.map ≠ none → k ∉ l.map Known.key) →
        Follow (preDoc (A ++ (ln ++ X)) (.init (A ++ (ln ++ X)))) fun d' _ => ∃ c2 d2, d' = d1.setE i (.mk key (.table (T.setCont d2))) ∧ FBody c2 l cs ∧ c2.Good PW ∧ Over c2 t d2 := by
  unfold preDoc at h
  obtain ⟨c1, s1, q1, q2⟩ := bind_ok h
  have hl1 : s1.loss = [] := loss_nil (mono_topTables _ _ _ _ _ q2).2 hl
  obtain ⟨hR, ha, hcl, u0, hu0, htx⟩ := keeps_fact (topItems_keep _ _ _) q1 hl1 rfl ⟨rfl, trivial⟩
  have ha : s1.aot = [] := ha
  have hg1 := topItems_good _ q1 hl1 (Cont.good_empty closed_PW)
  have hhl := topItems_headless _ q1 hl1 rfl (by intro e he; cases he)
  obtain ⟨_, ui, hui, hfr⟩ := topItems_front _ _ _ _ _ rfl rfl q1 hl1
  have hui : s = ui ++ s1.rest := hui
  rcases found _ _ _ _ _ _ _ _ _ hR ha hl1 q2 hl hg1 hcl ho hT with ⟨ho1, _⟩ | ⟨st0, s0, dI, d2, k1, m, u, ht⟩
  · exact absurd hT (hhl _ (List.mem_of_getElem? ho1.2) T rfl)
  have hst0 : s = (ui ++ u) ++ st0.rest := by rw [List.append_assoc, ← ht.text]; exact hui
  have hn0 : NoLoneCr st0.rest := NoLoneCr.suffix hn ⟨_, hst0.symm⟩
  obtain ⟨c, t, p, ln, Tx, v, hA, hind, hTa, hnm, hren, hagain⟩ := table_any ht.ready ht.run ht.loss' ht.loss ht.aot hn0 hT hnl hd
  have hp0 := ((Cont.good_iff _).1 ht.good).1.parsed
  have hrb := rawAppend_body ht.raw
  have htk : d1.body.take i = dI.body := by
    rw [ht.later.1, hrb, ht.pos, List.take_left']
    rfl
  have hib : i < d1.body.length := by
    have := ho.2
    exact (List.getElem?_eq_some_iff.1 this).1
  have hdi : d1.body = dI.body ++ Entry.mk key (.table T) :: d1.body.drop (i + 1) := by
    have h1 := List.take_append_drop i d1.body
    rw [List.drop_eq_getElem_cons hib, htk] at h1
    have h2 : d1.body[i] = Entry.mk key (.table T) := by
      have := ho.2
      rw [List.getElem?_eq_getElem hib] at this
      exact Option.some.inj this
    rw [h2] at h1
    exact h1.symm
  have hfull : Ctx.top.text d1.body = s := by
    have k1 := (keeps_fact (topTables_keep _ _ _) q2 hl hR ha hcl).2
    rw [k1, htx]
    have : s = u0 ++ pend s1 := hu0
    rw [this]; rfl
  have hAtext : ui ++ u = Ctx.top.text dI.body ++ st0.ext := by
    have k1 := (keeps_fact (topTables_keep _ _ _) q2 hl hR ha hcl).2
    rw [hfull, ht.body] at k1
    have hpend : pend st0 = st0.ext ++ st0.rest := by unfold pend; rw [if_neg ht.ne]
    rw [hpend, ← List.append_assoc, hst0] at k1
    exact List.append_cancel_right k1
  have hentry : ∀ C, Ctx.top.entry (.mk key (.table (T.setCont C))) = T.trivia.indent ++ ln ++ (Ctx.tbl false false p).text C.body := by
    intro C
    rw [hind, ← hren C none, ht.key]
    rfl
  have hbody : (Ctx.tbl false false p).text T.cont.body = entsStr none c.body ++ v := by
    rw [hA.over.body, Ctx.text_append, flat_text hA.inv.flat, hA.sub false]
  have hB : Ctx.top.text (d1.body.drop (i + 1)) = pend s0 := by
    have hx : Ctx.top.text d1.body = Ctx.top.text dI.body ++ (Ctx.top.entry (.mk key (.table T)) ++ Ctx.top.text (d1.body.drop (i + 1))) := by
      conv => lhs; rw [hdi]
      rw [Ctx.text_append]
      rfl
    have hy := hentry T.cont
    have hTT : T.setCont T.cont = T := by cases T; rfl
    rw [hTT, hbody, hind] at hy
    rw [hy, hfull, hst0, hAtext, hA.text, hA.below] at hx
    simp only [List.append_assoc, List.append_cancel_left_eq] at hx
    exact hx.symm
  refine ⟨c, t, ui ++ u, p, ln, Tx, v, pend s0, ⟨hA.over, hA.inv, hA.shut, hA.good, hA.tables, hA.below, hA.sub false, ?_, ?_, hB.symm, hentry⟩, ?_⟩
  · rw [← hA.text]; exact hst0
  · rw [htk, hAtext, hind]
  intro X l cs hX hsol hdis
  obtain ⟨hM, hrun⟩ := hagain X l cs hX hsol hdis
  obtain ⟨hM1, hr1⟩ := ht.front _ hM
  obtain ⟨_, hr0⟩ := hfr _ hM1
  have hs1 : s1.rest ≠ [] := by rw [ht.text]; intro h0; exact ht.ne (List.append_eq_nil_iff.1 h0).2
  unfold preDoc
  rw [List.append_assoc]
  refine Follow.bind (hr0 _) fun c' s' _ hF => ?_
  obtain ⟨rfl, hh⟩ := hF
  have hstate : s' = ⟨u ++ (ln ++ X), s1.ext, [], []⟩ := by rw [hh.state, hh.ext hs1, ha]
  rw [hstate]
  rcases hr1 (docFuel (ui ++ (u ++ (ln ++ X)))) with ⟨x, hx⟩ | ⟨n2, hx⟩
  · rw [hx]; exact .fuel
  rw [hx]
  rcases n2 with _ | n2
  · exact .fuel
  rw [topTables_eq n2 _ _ (fun h0 => ht.ne ((nil_of_head hM.head).1 h0))]
  refine Follow.bind (hrun n2) fun q s' _ hF => ?_
  obtain ⟨c2, d3, rfl, f1, f2, f3, f4, f5⟩ := hF
  rw [topValue_plain n2 _ (fun tb htb => by
    have := Item.table.inj htb
    rw [← this]
    have : (T.setCont d3).isAot = T.isAot := by cases T; rfl
    rw [this]; exact hTa)]
  refine Follow.step (s := s') (a := .table (T.setCont d3)) rfl ?_
  have hap := append_table_new hp0 (by rw [ht.name]; exact ht.new) hnm ht.raw d3
  refine follow_wrap hap ?_
  refine Follow.step (s := s') (a := ()) rfl ?_
  rw [← ht.pos, ← ht.key] at hap ⊢
  have hvg : (Item.table (T.setCont d3)).Good PW := by
    cases T
    exact f4
  have hge : (d2.setE i (.mk key (.table (T.setCont d3)))).Good PW := append_good closed_PW ht.good hvg hap
  have hfin : ∀ n' lg, Follow (topTables n' (d2.setE i (.mk key (.table (T.setCont d3)))) (s0.log lg)) fun d' s' => d' = d1.setE i (.mk key (.table (T.setCont d3))) ∧ s' = st.log lg :=
    fun n' lg => ht.later.2 _ n' lg hge
  rcases f5 with ⟨g1, g2, g3⟩ | ⟨lg, rfl⟩
  · rcases n2 with _ | n2
    · exact .fuel
    rw [topTables, getSt_bind, if_pos (atEnd_iff.2 g2)]
    refine .ok ⟨c2, d3, ?_, f1, f2, f3⟩
    have := hfin 1 []
    rw [topTables, getSt_bind, if_pos (atEnd_iff.2 (show (s0.log []).rest = [] from g1))] at this
    rcases this with ⟨x, hx⟩ | ⟨a, s', hx, h1, _⟩
    · cases hx
    · cases hx
      exact h1
  · rcases hfin n2 lg with ⟨x, hx⟩ | ⟨a, s', hx, h1, _⟩
    · rw [hx]; exact .fuel
    · rw [hx]; exact .ok ⟨c2, d3, h1, f1, f2, f3⟩

end Tomlkit
