import Verif.Proofs.InlineParsed
import Verif.Props.DeepEdits
/-!
# Inline tables on the lines of a document
-/
namespace Tomlkit
open _root_.Spec Tomlkit.Spec

/-- The inline tables of a document that was read are as described. -/
theorem doc_neat {s : Str} {doc : Cont} (h : parseLog s = .ok (doc, [])) : ∀ v ∈ doc.leaves, Neat v := by
  have hL : LineHyp Eq (fun w i => w = i ∧ Neat w) := by
    intro R e a k v s h hl w hu R1 hh
    subst hu
    obtain ⟨u, hu1, hu2⟩ := local_run (p := parseItem) (fun t t' a' l u e a => Rel.parseItem) mono_parseItem h hl (parseItem_aot h) hh
    refine ⟨u ++ R1, v, ⟨rfl, ?_⟩, ?_, fun e' => ⟨s.ext, ?_⟩⟩
    · unfold parseItem at h
      obtain ⟨_, s1, q1, h⟩ := bind_ok h
      cases q1
      rw [getSt_bind] at h
      obtain ⟨_, s1, q1, h⟩ := bind_ok h
      rw [skip_st] at q1
      cases q1
      dsimp only at h
      rw [getSt_bind] at h
      by_cases h10 : (St.mk (R.dropWhile isSpTabCr) ([] ++ R.takeWhile isSpTabCr) a []).cur = 10
      · rw [if_pos h10] at h
        obtain ⟨_, _, _, h⟩ := bind_ok h
        cases h
      rw [if_neg h10] at h
      split at h
      · cases h
      split at h
      · obtain ⟨_, _, _, h⟩ := bind_ok h
        obtain ⟨⟨_, _, _⟩, _, _, h⟩ := bind_ok h
        cases h
      split at h
      · cases h
      obtain ⟨p, s2, q, h⟩ := bind_ok h
      cases h
      generalize valueFuel _ = n at q
      rcases n with _ | n
      · unfold parseKeyValue at q; cases q
      unfold parseKeyValue at q
      obtain ⟨_, s1, q1, q⟩ := bind_ok q
      obtain ⟨_, s2, q2, q⟩ := bind_ok q
      obtain ⟨_, s3, q3, q⟩ := bind_ok q
      obtain ⟨_, s4, q4, q⟩ := bind_ok q
      obtain ⟨_, s5, q5, q⟩ := bind_ok q
      obtain ⟨val, s6, q6, q⟩ := bind_ok q
      dsimp only at q
      rw [if_pos rfl] at q
      obtain ⟨⟨cws, cm, tr⟩, s7, q7, q⟩ := bind_ok q
      dsimp only at q
      obtain ⟨_, s8, q8, q⟩ := bind_ok q
      cases q
      have l7 := loss_nil (mono_note _ _ _ _ _ q8).2 hl
      have l6 := loss_nil (mono_parseCommentTrail _ _ _ _ q7).2 l7
      have l5 := loss_nil (mono_parseValue _ _ _ _ q6).2 l6
      exact ((neat_parse n).1 _ _ _ q6 l5 l6).setTrivia _
    · rw [hu1]
      rcases u with _ | ⟨c, u⟩
      · exact hh
      · rfl
    · rw [parseItem_ext _ e' e]; exact hu2
  obtain ⟨c, rfl, _, _, hlock⟩ := doc_lock hL (fun v => rfl) h
  obtain ⟨s', c', us, hfit, _⟩ := hlock c.leaves (by
    generalize c.leaves = l
    induction l with
    | nil => exact .nil
    | cons a l ih => exact .cons rfl ih)
  rw [Cont.stop_leaves]
  have h2 := hfit.2
  clear hfit hlock h
  generalize c.leaves = l at h2
  generalize List.map Prod.snd us = l' at h2
  induction h2 with
  | nil => intro v hv; cases hv
  | cons h _ ih =>
    intro v hv
    rcases List.mem_cons.1 hv with rfl | hv
    · exact h.2
    · exact ih v hv

/-- a document is near itself, with what holds of its values -/
theorem near_self_of {c : Cont} (hcl : c.Clean) {U : Item → Item → Prop} (h : ∀ v ∈ c.stopParsing.leaves, U v v) : c.stopParsing.Near U c.stopParsing := by
  have h0 := Cont.near_self (Q := fun _ _ => True) (fun _ => trivial) c hcl
  refine (Cont.near_of _ _ _ h0 rfl (r2 := []) (r3 := []) ?_).1
  rw [List.append_nil]
  generalize c.stopParsing.leaves = l at h
  clear h0 hcl
  induction l with
  | nil => exact .nil
  | cons a l ih => exact .cons (h a (by simp)) (ih fun v hv => h v (by simp [hv]))

/-- an edit inside the value of a line -/
theorem near_inside {U : Item → Item → Prop} {op : Op} {k : Str} {ks : List Step} {new : Item} (hvs' : new.isSimple = true) {key : SKey} {old : Item}
    (hrun : ∀ {h : Holder} {c : Cont} {i : Nat} {sk : Option SKey}, mapGet k c.map = some [i] → c.body[i]? = some (.mk sk old) →
      Cont.atPath op (.key k :: ks) h c = .ok (.mk (c.body.set i (.mk sk new)) c.map c.dict c.parsed c.tableKeys))
    (hU : ∀ o, U o old → U o new) (path : List Step) :
    ∀ {h : Holder} {o c : Cont}, o.Good Cont.WF → o.Near U c → lineAt path c k = some (key, old) →
    ∃ c', Cont.atPath op (path ++ .key k :: ks) h c = .ok c' ∧ o.Near U c' ∧ lineAt path c' k = some (key, new) ∧
      ∀ p k', ¬(p = path ∧ k' = k) → lineAt p c' k' = lineAt p c k' := by
  induction path with
  | nil =>
    intro h o c hg hn hf
    have hwf := ((Cont.good_iff _).1 hg).1
    obtain ⟨n1, n2, _, _, _, _, n7⟩ := near_cont hn
    unfold lineAt at hf
    rcases hm : mapGet k c.map with _ | is
    · rw [hm] at hf; cases hf
    rcases is with _ | ⟨i, _ | ⟨_, _⟩⟩ <;> rw [hm] at hf <;> try (cases hf; done)
    dsimp only at hf
    rcases hb : c.body[i]? with _ | ⟨_ | sk, w⟩ <;> rw [hb] at hf <;> dsimp only at hf <;> try (cases hf; done)
    split at hf
    case isFalse => cases hf
    rename_i hw
    cases hf
    rw [lineValue_simple] at hw
    rcases n1.at i with ⟨_, h2⟩ | ⟨e, e', h1, h2, h3⟩
    · rw [hb] at h2; cases h2
    rw [hb] at h2
    cases h2
    obtain ⟨b1, b2, b3⟩ := near_back h3
    have hek : e.key = some key := b1.symm
    obtain ⟨ke, hke, hk⟩ := mapGet_key hwf (by rw [← n2]; exact hm) (show o.body[i]? = some (.mk e.key e.v) from by rw [h1]; cases e; rfl)
    rw [hek] at hke
    cases hke
    have hlt := (List.getElem?_eq_some_iff.1 hb).1
    have hold : old.isTableLike = false := by cases old <;> first | rfl | cases hw
    have hes : e.v.isSimple = true := by rw [← b2.simple]; exact hw
    have hmap : ∀ k', mapGet k' c.map = mapGet k' o.map := n2
    refine ⟨_, hrun hm hb, ?_, ?_, ?_⟩
    · refine n7 _ _ (n1.put h1 ?_) hmap
      exact b3 _ ((near_simple hes).2 ⟨hvs', hU _ ((near_simple hes).1 b2).2⟩)
    · unfold lineAt
      rw [Cont.map_mk, hm]
      dsimp only
      rw [Cont.body_mk, List.getElem?_set, if_pos rfl, if_pos hlt]
      dsimp only
      rw [lineValue_simple, hvs', if_pos rfl]
    · intro p k' hpk
      have hnt : (∀ tb, old ≠ .table tb) ∧ ∀ ts t n p, old ≠ .aot ts t n p := by
        refine ⟨?_, ?_⟩ <;> intros <;> rintro rfl <;> cases hw
      have hnt' : (∀ tb, new ≠ .table tb) ∧ ∀ ts t n p, new ≠ .aot ts t n p := by
        refine ⟨?_, ?_⟩ <;> intros <;> intro h0 <;> rw [h0] at hvs' <;> cases hvs'
      rcases p with _ | ⟨s | ⟨s, j⟩, r⟩
      · unfold lineAt
        rw [Cont.map_mk, n2]
        rcases hm' : mapGet k' o.map with _ | is
        · rfl
        rcases is with _ | ⟨i', _ | ⟨_, _⟩⟩ <;> dsimp only
        have hne : i ≠ i' := by
          rintro rfl
          obtain ⟨ke, hke, hk'⟩ := mapGet_key hwf hm' (show o.body[i]? = some (.mk e.key e.v) from by rw [h1]; cases e; rfl)
          rw [hek] at hke
          cases hke
          exact hpk ⟨rfl, hk'.symm.trans hk⟩
        rw [Cont.body_mk, List.getElem?_set_ne hne]
      · unfold lineAt
        rw [Cont.map_mk, n2]
        rcases hm' : mapGet s o.map with _ | is
        · rfl
        rcases is with _ | ⟨i', _ | ⟨_, _⟩⟩ <;> dsimp only
        by_cases hne : i = i'
        · subst hne
          rw [Cont.body_mk, List.getElem?_set, if_pos rfl, if_pos hlt, hb]
          try dsimp only
          generalize new = v0 at hnt'
          rcases old with _ | _ | _ | _ | _ | _ | _ | _ | _ | _ | _ | tb | _ | _ <;> rcases v0 with _ | _ | _ | _ | _ | _ | _ | _ | _ | _ | _ | tb | _ | _ <;>
            first | rfl | exact absurd rfl (hnt.1 _) | exact absurd rfl (hnt'.1 _)
        · rw [Cont.body_mk, List.getElem?_set_ne hne]
      · unfold lineAt
        rw [Cont.map_mk, n2]
        rcases hm' : mapGet s o.map with _ | is
        · rfl
        rcases is with _ | ⟨i', _ | ⟨_, _⟩⟩ <;> dsimp only
        by_cases hne : i = i'
        · subst hne
          rw [Cont.body_mk, List.getElem?_set, if_pos rfl, if_pos hlt, hb]
          try dsimp only
          generalize new = v0 at hnt'
          rcases old with _ | _ | _ | _ | _ | _ | _ | _ | _ | _ | _ | tb | _ | _ <;> rcases v0 with _ | _ | _ | _ | _ | _ | _ | _ | _ | _ | _ | tb | _ | _ <;>
            first | rfl | exact absurd rfl (hnt.2 _ _ _ _) | exact absurd rfl (hnt'.2 _ _ _ _)
        · rw [Cont.body_mk, List.getElem?_set_ne hne]
  | cons s r ih =>
    intro h o c hg hn hf
    have hwf := ((Cont.good_iff _).1 hg).1
    obtain ⟨n1, n2, _, _, _, _, n7⟩ := near_cont hn
    have huniq : ∀ {a b : Str} {i : Nat} {e : Entry}, mapGet a c.map = some [i] → mapGet b c.map = some [i] → o.body[i]? = some e → a = b := by
      intro a b i e ha hb he
      rw [n2] at ha hb
      obtain ⟨ke, h1, h2⟩ := mapGet_key hwf ha (show o.body[i]? = some (.mk e.key e.v) from by rw [he]; cases e; rfl)
      obtain ⟨ke', h3, h4⟩ := mapGet_key hwf hb (show o.body[i]? = some (.mk e.key e.v) from by rw [he]; cases e; rfl)
      rw [h1] at h3
      cases h3
      rw [← h2, ← h4]
    rw [List.cons_append]
    rcases s with s | ⟨s, j⟩ <;> unfold lineAt at hf <;> unfold Cont.atPath
    · rcases hm : mapGet s c.map with _ | is
      · rw [hm] at hf; cases hf
      rcases is with _ | ⟨i, _ | ⟨_, _⟩⟩ <;> rw [hm] at hf <;> try (cases hf; done)
      dsimp only at hf ⊢
      rcases hb : c.body[i]? with _ | ⟨sk, w⟩ <;> rw [hb] at hf <;> try dsimp only at hf ⊢
      · cases hf
      have hlt := (List.getElem?_eq_some_iff.1 hb).1
      rcases n1.at i with ⟨_, h2⟩ | ⟨e, e', h1, h2, h3⟩
      · rw [hb] at h2; cases h2
      rw [hb] at h2
      cases h2
      obtain ⟨b1, b2, b3⟩ := near_back h3
      rcases w with _ | _ | _ | _ | _ | _ | _ | _ | _ | _ | ⟨ci, t, new⟩ | tb | ⟨ts, t, nm, p⟩ | _ <;> dsimp only at hf ⊢ <;>
        try (cases hf; done)
      have hgt := good_at hg (show o.body[i]? = some (.mk e.key e.v) from by rw [h1]; cases e; rfl)
      have b2 : e.v.Near U (.table tb) := b2
      have hkind := b2.kinds.1
      rcases hev : e.v with _ | _ | _ | _ | _ | _ | _ | _ | _ | _ | _ | te | _ | _ <;> rw [hev] at hkind <;> try (cases hkind; done)
      rw [hev] at b2 hgt b3
      obtain ⟨tb', htb, b2⟩ := b2
      cases htb
      obtain ⟨t1, t2, t3⟩ := near_tbl b2
      obtain ⟨c1, g1, g2, g3, g4⟩ := ih (h := .table tb.trivia) ((Tbl.good_iff _).1 hgt) t1 hf
      rw [g1]
      refine ⟨_, rfl, ?_, ?_, ?_⟩
      · refine n7 _ _ (n1.put h1 (b3 _ ⟨_, rfl, t3 _ g2⟩)) n2
      · unfold lineAt
        rw [Cont.map_mk, hm]
        dsimp only
        rw [Cont.body_mk, List.getElem?_set, if_pos rfl, if_pos hlt]
        dsimp only
        rw [(setCont_fields tb c1).1]
        exact g3
      · intro p k' hpk
        rcases p with _ | ⟨s' | ⟨s', j'⟩, r'⟩ <;> unfold lineAt <;> rw [Cont.map_mk]
        · rcases hm' : mapGet k' c.map with _ | is
          · rfl
          rcases is with _ | ⟨i', _ | ⟨_, _⟩⟩ <;> dsimp only
          by_cases hne : i = i'
          · subst hne
            rw [Cont.body_mk, List.getElem?_set, if_pos rfl, if_pos hlt, hb]
            rcases sk with _ | sk <;> rfl
          · rw [Cont.body_mk, List.getElem?_set_ne hne]
        · rcases hm' : mapGet s' c.map with _ | is
          · rfl
          rcases is with _ | ⟨i', _ | ⟨_, _⟩⟩ <;> dsimp only
          by_cases hne : i = i'
          · subst hne
            rw [Cont.body_mk, List.getElem?_set, if_pos rfl, if_pos hlt, hb]
            dsimp only
            rw [(setCont_fields tb c1).1]
            refine g4 r' k' fun hrk => hpk ⟨?_, hrk.2⟩
            rw [hrk.1, huniq hm' hm h1]
          · rw [Cont.body_mk, List.getElem?_set_ne hne]
        · rcases hm' : mapGet s' c.map with _ | is
          · rfl
          rcases is with _ | ⟨i', _ | ⟨_, _⟩⟩ <;> dsimp only
          by_cases hne : i = i'
          · subst hne
            rw [Cont.body_mk, List.getElem?_set, if_pos rfl, if_pos hlt, hb]
          · rw [Cont.body_mk, List.getElem?_set_ne hne]
    · rcases hm : mapGet s c.map with _ | is
      · rw [hm] at hf; cases hf
      rcases is with _ | ⟨i, _ | ⟨_, _⟩⟩ <;> rw [hm] at hf <;> try (cases hf; done)
      dsimp only at hf ⊢
      rcases hb : c.body[i]? with _ | ⟨sk, w⟩ <;> rw [hb] at hf <;> try dsimp only at hf ⊢
      · cases hf
      have hlt := (List.getElem?_eq_some_iff.1 hb).1
      rcases n1.at i with ⟨_, h2⟩ | ⟨e, e', h1, h2, h3⟩
      · rw [hb] at h2; cases h2
      rw [hb] at h2
      cases h2
      obtain ⟨b1, b2, b3⟩ := near_back h3
      rcases w with _ | _ | _ | _ | _ | _ | _ | _ | _ | _ | ⟨ci, t, new⟩ | tb | ⟨ts, t, nm, p⟩ | _ <;> dsimp only at hf ⊢ <;>
        try (cases hf; done)
      rcases hj : ts[j]? with _ | tb <;> rw [hj] at hf <;> dsimp only at hf ⊢
      · cases hf
      have hltj := (List.getElem?_eq_some_iff.1 hj).1
      have hgt := good_at hg (show o.body[i]? = some (.mk e.key e.v) from by rw [h1]; cases e; rfl)
      have b2 : e.v.Near U (.aot ts t nm p) := b2
      have hkind := b2.kinds.2.1
      rcases hev : e.v with _ | _ | _ | _ | _ | _ | _ | _ | _ | _ | _ | _ | ⟨tse, te, nme, pe⟩ | _ <;> rw [hev] at hkind <;> try (cases hkind; done)
      rw [hev] at b2 hgt b3
      obtain ⟨ts', hts, b2⟩ := b2
      cases hts
      rw [nearTables_iff] at b2
      rcases b2.at j with ⟨_, h2⟩ | ⟨te, tb', j1, j2, j3⟩
      · rw [hj] at h2; cases h2
      rw [hj] at j2
      cases j2
      obtain ⟨t1, t2, t3⟩ := near_tbl j3
      have hgj := (Tbl.good_iff _).1 ((Item.good_aot _ _ _ _).1 hgt _ (List.mem_of_getElem? j1))
      obtain ⟨c1, g1, g2, g3, g4⟩ := ih (h := .table tb.trivia) hgj t1 hf
      rw [g1]
      refine ⟨_, rfl, ?_, ?_, ?_⟩
      · refine n7 _ _ (n1.put h1 (b3 _ ⟨_, rfl, nearTables_iff.2 (b2.put j1 (t3 _ g2))⟩)) n2
      · unfold lineAt
        rw [Cont.map_mk, hm]
        dsimp only
        rw [Cont.body_mk, List.getElem?_set, if_pos rfl, if_pos hlt]
        dsimp only
        rw [List.getElem?_set, if_pos rfl, if_pos hltj]
        dsimp only
        rw [(setCont_fields tb c1).1]
        exact g3
      · intro p k' hpk
        rcases p with _ | ⟨s' | ⟨s', j'⟩, r'⟩ <;> unfold lineAt <;> rw [Cont.map_mk]
        · rcases hm' : mapGet k' c.map with _ | is
          · rfl
          rcases is with _ | ⟨i', _ | ⟨_, _⟩⟩ <;> dsimp only
          by_cases hne : i = i'
          · subst hne
            rw [Cont.body_mk, List.getElem?_set, if_pos rfl, if_pos hlt, hb]
            rcases sk with _ | sk <;> rfl
          · rw [Cont.body_mk, List.getElem?_set_ne hne]
        · rcases hm' : mapGet s' c.map with _ | is
          · rfl
          rcases is with _ | ⟨i', _ | ⟨_, _⟩⟩ <;> dsimp only
          by_cases hne : i = i'
          · subst hne
            rw [Cont.body_mk, List.getElem?_set, if_pos rfl, if_pos hlt, hb]
          · rw [Cont.body_mk, List.getElem?_set_ne hne]
        · rcases hm' : mapGet s' c.map with _ | is
          · rfl
          rcases is with _ | ⟨i', _ | ⟨_, _⟩⟩ <;> dsimp only
          by_cases hne : i = i'
          · subst hne
            rw [Cont.body_mk, List.getElem?_set, if_pos rfl, if_pos hlt, hb]
            dsimp only
            by_cases hnj : j = j'
            · subst hnj
              rw [List.getElem?_set, if_pos rfl, if_pos hltj, hj]
              dsimp only
              rw [(setCont_fields tb c1).1]
              refine g4 r' k' fun hrk => hpk ⟨?_, hrk.2⟩
              rw [hrk.1, huniq hm' hm h1]
            · rw [List.getElem?_set_ne hnj]
          · rw [Cont.body_mk, List.getElem?_set_ne hne]

end Tomlkit
