import Verif.Proofs.Inside
import Verif.Proofs.HeadAny
import Verif.Proofs.Found
/-!
# A table of the document, read with other lines in it
-/
namespace Tomlkit
open _root_.Spec Tomlkit.Spec

theorem header_text_line {h : Header} (ha : h.isAot = false) : h.text = h.indent ++ h.line := by
  unfold Header.text Header.line
  rw [ha]

/-- a table of the document that was read: its header `ln`, its lines `c` and its sub-tables `t` -/
structure AnyTable (st0 s0 : St) (T c t : Cont) (p ln Tx v : Str) : Prop where
  over : Over c t T
  inv : Inv c True
  shut : Tx ≠ [] → PreShut c.body
  good : t.Good PW
  good' : T.Good PW
  tables : ∀ e ∈ t.body, e.v.isTableLike = true
  ready : Ready s0
  aot : s0.aot = []
  text : st0.rest = ln ++ (entsStr none c.body ++ Tx)
  below : Tx = v ++ pend s0
  sub : ∀ ia, (Ctx.tbl false ia p).text t.body = v

theorem table_any {m : Nat} {st0 s0 : St} {k1 : SKey} {T : Tbl} (hR : Ready st0) (h : parseTable m none st0 = .ok (.single k1, .table T) s0) (hl : s0.loss = [])
    (hst : st0.loss = []) (ha : st0.aot = []) (hn : NoLoneCr st0.rest) (hT : T.superFlag = some false) (hnl : hasNl T.trivia.trail = true)
    (hd : ∀ e ∈ T.cont.body, isDottedKey e.key = false) :
    ∃ c t p ln Tx v, AnyTable st0 s0 T.cont c t p ln Tx v ∧ T.trivia.indent = st0.ext ∧ T.isAot = false ∧ T.name.isSome = true ∧
      (∀ C pfx, (T.setCont C).render k1 pfx = st0.ext ++ ln ++ (Ctx.tbl false false p).text C.body) ∧
      ∀ X l cs, FLines X Tx l cs → Solids l → (∀ k, mapGet k t.map ≠ none → k ∉ l.map Known.key) → Meet st0 (ln ++ X) ∧
        ∀ n', Follow (parseTable n' none ⟨ln ++ X, st0.ext, [], []⟩) fun q s' => ∃ c2 d2, q = (.single k1, .table (T.setCont d2)) ∧ FBody c2 l cs ∧
          c2.Good PW ∧ Over c2 t d2 ∧ d2.Good PW ∧ Lands s0 s' := by
  have hplain := table_plain hR h hl ha T rfl
  rcases m with _ | m
  · cases h
  obtain ⟨hdr, s1, tb, s2, h1, hl1, hno, h2, hl2, hv, h3⟩ := parseTable_step h hl
  have hH := keeps_fact (parseHeader_keeps st0) h1 hl1
  obtain ⟨uk, hK⟩ := hH.keyIs
  have hparts : hdr.below none = hdr.key.parts := rfl
  have hs1a : s1.aot = [] := by
    have := parseHeader_does st0
    unfold Does P.wp at this
    rw [h1] at this
    rw [← ha]
    exact this.2.2.1
  rcases tableEnd_inv h3 with ⟨k, q, r, _, a, hp, _⟩ | ⟨_, h4⟩ | ⟨hna, hnp, hp, hs⟩
  · exfalso
    have : Item.table T = .table (hdr.chain tb ⟨[], hdr.cws, hdr.comment, hdr.trail⟩ a k.key (q :: r)) := (Prod.mk.inj hp).2
    have := Item.table.inj this
    rw [this, (chain_name _ _ _ _ _ _ _).2] at hT
    cases hT
  · cases h4
  have hTb : tb = T := (Item.table.inj (Prod.mk.inj hp).2).symm
  subst hTb
  have hshape := tableLoop_shape h2 hl2 ⟨rfl, trivial⟩
  have hkp : hdr.key.parts = [k1] := by
    rw [hparts] at hnp hp
    rcases hq : hdr.key.parts with _ | ⟨k, _ | ⟨q, r⟩⟩
    · exact absurd hq hK.ne
    · rw [hq] at hp
      have : Key.single k1 = .single k := (Prod.mk.inj hp).1
      rw [Key.single.inj this]
    · exact absurd hq (hnp k q r)
  have hdot : k1.dotted = false := (hK.plain k1 (by rw [hkp]; simp)).1
  have haot : hdr.isAot = false := by
    rw [hshape] at hplain
    exact hplain
  have htriv : tb.trivia = ⟨hdr.indent, hdr.cws, hdr.comment, hdr.trail⟩ := by rw [hshape]; rfl
  have hnl' : hasNl hdr.trail = true := by rw [htriv] at hnl; exact hnl
  have hs1n : NoLoneCr s1.rest := by
    have := hH.line
    rw [this] at hn
    exact NoLoneCr.suffix hn (List.suffix_append _ _)
  obtain ⟨c, t, Tx, v, i1, i2, i3, i4, i5, i6, i7, i8, i9, i10, i11, i12, i13⟩ := inside rfl h2 hl2 hl1 hs1a hs1n hd
  subst hs
  refine ⟨c, t, hdr.key.asString, hdr.line, Tx, v, ⟨i1, i3, i4, i5, i6, i7, i8, i9, ?_, i11, i12⟩, ?_, hplain, ?_, ?_, ?_⟩
  · rw [hH.line, i10]
  · rw [htriv]; exact hH.indent
  · rw [hshape]; rfl
  · intro C pfx
    have hs' : tb.setCont C = (hdr.leaf (hdr.inner (hdr.below none))).setCont C := by rw [hshape]; rfl
    rw [hs']
    rw [← hH.indent]
    obtain ⟨b, mp, d, pp, tk⟩ := C
    show tableHeader k1 pfx _ ++ tableBodyStr k1.dotted false hdr.key.asString b = _
    rw [hdot, tableBodyStr_ctx]
    congr 1
    unfold tableHeader
    rw [if_pos (by simp [showsHeader, Tbl.isSuper])]
    show hdr.indent ++ headOpen hdr.isAot ++ hdr.key.asString ++ headClose hdr.isAot ++ hdr.cws ++ hdr.comment ++ hdr.trail ++
      (if (!hasNl hdr.trail && decide (d.length > 0)) = true then [10] else []) = _
    rw [hnl', haot]
    simp [Header.line, haot]
  · intro X l cs hX hsol hdis
    obtain ⟨R, e, a, lo⟩ := st0
    simp only at ha hst
    subst ha hst
    obtain ⟨hM, e', hrun⟩ := header_any h1 hl1 haot hnl' X
    refine ⟨hM, fun n' => ?_⟩
    rcases n' with _ | n'
    · exact .fuel
    rw [parseTable_eq]
    refine Follow.step hrun ?_
    rw [hno]
    refine Follow.step (note_no _ _) ?_
    refine Follow.bind (i13 X l cs hX hsol hdis n' e') fun tb2 s' _ hF => ?_
    obtain ⟨c2, f1, f2, f3, f4, f5, f6⟩ := hF
    have hval := Over.validate i1 f3 f5 (((Cont.good_iff _).1 (good_WF_of_PW f2)).1) f1.plain hv
    refine Follow.step (s := s') (a := ()) (by rw [hval]; rfl) ?_
    have hend : tableEnd n' hdr (hdr.below none) tb2 s' = .ok (.single k1, .table tb2) s' := by
      rw [hparts, hkp]
      unfold tableEnd Header.newAot
      rw [haot]
      rfl
    rw [hend]
    refine .ok ⟨c2, tb2.cont, ?_, f1, f2, f3, f5, f6⟩
    rw [f4, hshape]
    rfl

end Tomlkit
