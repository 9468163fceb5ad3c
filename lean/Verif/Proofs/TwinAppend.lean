import Verif.Proofs.Twin
/-!
# Two containers that differ in the values of their lines
-/
namespace Tomlkit

/-- two items with the same skeleton; `ts` are the values of their lines -/
structure TwinI (ts : List (Item × Item)) (v v' : Item) : Prop where
  skel : v'.skel = v.skel
  good : v.Good PW
  good' : v'.Good PW
  left : v.leaves = ts.map Prod.fst
  right : v'.leaves = ts.map Prod.snd

/-- two containers with the same skeleton; `ts` are the values of their lines -/
structure TwinC (ts : List (Item × Item)) (c c' : Cont) : Prop where
  skel : c'.skel = c.skel
  good : c.Good PW
  good' : c'.Good PW
  clean : c.Clean
  clean' : c'.Clean
  left : c.leaves = ts.map Prod.fst
  right : c'.leaves = ts.map Prod.snd

/-- two tables with the same skeleton; `ts` are the values of their lines -/
structure TwinT (ts : List (Item × Item)) (t t' : Tbl) : Prop where
  skel : t'.skel = t.skel
  cont : TwinC ts t.cont t'.cont

theorem Item.size_eq {v v' : Item} (h : v'.skel = v.skel) : v'.size = v.size := by rw [← Item.size_skel v, ← Item.size_skel v', h]

theorem fuelFor_eq {c c' : Cont} {v v' : Item} (hc : c'.skel = c.skel) (hv : v'.skel = v.skel) : fuelFor c' v' = fuelFor c v := by
  rw [← fuelFor_skel c v, ← fuelFor_skel c' v', hc, hv]

theorem TwinC.append1 {ts us : List (Item × Item)} {c c' : Cont} {v v' : Item} {n : Nat} {val : Bool} {key : Option SKey} {r : Cont}
    (hc : TwinC ts c c') (hv : TwinI us v v') (he : (Entry.mk key v).Clean) (he' : (Entry.mk key v').Clean)
    (h : Cont.append1 n false val c key v = .ok (r, false)) :
    ∃ r', Cont.append1 n false val c' key v' = .ok (r', false) ∧ TwinC (ts ++ us) r r' := by
  have h1 := (append1_skel n).1 false val c key v hc.good hv.good
  have h2 := (append1_skel n).1 false val c' key v' hc.good' hv.good'
  rw [h, view_ok (.inr rfl)] at h1
  rw [hc.skel, hv.skel, h1] at h2
  obtain ⟨⟨r', b⟩, h3, h4⟩ := Option.map_eq_some_iff.1 h2.symm
  obtain ⟨h5, _⟩ := view_some h3
  simp only [skelPair, Prod.mk.injEq] at h4
  obtain ⟨h4, rfl⟩ := h4
  refine ⟨r', h5, h4, (append1_good closed_PW n).1 hc.good hv.good h, (append1_good closed_PW n).1 hc.good' hv.good' h5,
    ((append1_text n).1 _ _ _ _ _ _ hc.clean he h).clean, ((append1_text n).1 _ _ _ _ _ _ hc.clean' he' h5).clean, ?_, ?_⟩
  · rw [(append1_leaves n).1 _ _ _ _ _ _ hc.clean hc.good he hv.good h, hc.left, hv.left, List.map_append]
  · rw [(append1_leaves n).1 _ _ _ _ _ _ hc.clean' hc.good' he' hv.good' h5, hc.right, hv.right, List.map_append]

theorem TwinC.appendTable {ts us : List (Item × Item)} {c c' : Cont} {v v' : Item} {val : Bool} {k : SKey} {r : Cont}
    (hc : TwinC ts c c') (hv : TwinI us v v') (he : (Entry.mk (some k) v).Clean) (he' : (Entry.mk (some k) v').Clean)
    (h : Cont.append val c (some (.single k)) v = .ok (r, false)) :
    ∃ r', Cont.append val c' (some (.single k)) v' = .ok (r', false) ∧ TwinC (ts ++ us) r r' := by
  have h : Cont.append1 (fuelFor c v) false val c (some k) v = .ok (r, false) := h
  show ∃ r', Cont.append1 (fuelFor c' v') false val c' (some k) v' = .ok (r', false) ∧ _
  rw [fuelFor_eq hc.skel hv.skel]
  exact hc.append1 hv he he' h

theorem dottedChain_skel (v : Item) (sep : Str) : ∀ (r : List SKey) (nm : Option Str),
    dottedChain nm r sep v.skel = (dottedChain nm r sep v).map Tbl.skel
  | [], _ => rfl
  | [k], nm => by
    simp only [dottedChain, dottedTable, Option.map_some, Option.some.injEq, Item.skel_isTable]
    rfl
  | k :: k2 :: r, nm => by
    have := dottedChain_skel v sep (k2 :: r) (some k.key)
    have e : ∀ w, dottedChain nm (k :: k2 :: r) sep w = (dottedChain (some k.key) (k2 :: r) sep w).map fun t => dottedTable { k with dotted := true } (.table t) nm :=
      fun _ => rfl
    rw [e, e, this]
    rcases dottedChain (some k.key) (k2 :: r) sep v with _ | t
    · rfl
    · rfl

theorem dottedChain_leaves {v : Item} {sep : Str} : ∀ {r : List SKey} {nm : Option Str} {t : Tbl}, dottedChain nm r sep v = some t → t.leaves = v.leaves
  | [], _, _, h => by cases h
  | [k], nm, t, h => by
    simp only [dottedChain, Option.some.injEq] at h
    subst h
    show v.leaves ++ [] = _
    simp
  | k :: k2 :: r, nm, t, h => by
    simp only [dottedChain] at h
    obtain ⟨t1, h1, rfl⟩ := Option.map_eq_some_iff.1 h
    show t1.leaves ++ [] = _
    rw [List.append_nil]
    exact dottedChain_leaves h1

/-- a line is added -/
theorem TwinC.appendLine {ts us : List (Item × Item)} {c c' : Cont} {k : Option Key} {v v' : Item} {val : Bool} {r : Cont} {mv : Bool} {st s st' s' : St}
    (hc : TwinC ts c c') (hv : TwinI us v v') (hi : ItemIs st (some (k, v)) s) (hi' : ItemIs st' (some (k, v')) s')
    (h : Cont.append val c k v = .ok (r, mv)) :
    mv = false ∧ ∃ r', Cont.append val c' k v' = .ok (r', false) ∧ TwinC (ts ++ us) r r' := by
  have hp := ((Cont.clean_iff c).1 hc.clean).1
  rcases k with _ | key
  · obtain ⟨_, h3, h4⟩ := hi.blank v rfl
    obtain ⟨_, h3', h4'⟩ := hi'.blank v' rfl
    obtain ⟨_, _, rfl⟩ := append_ws hp h4 h
    refine ⟨rfl, ?_⟩
    have h : Cont.append1 (fuelFor c v) false val c none v = .ok (r, false) := h
    show ∃ r', Cont.append1 (fuelFor c' v') false val c' none v' = .ok (r', false) ∧ _
    rw [fuelFor_eq hc.skel hv.skel]
    exact hc.append1 hv h3 h3' h
  · obtain ⟨key0, u, sep, hpair⟩ := hi.pair key v rfl
    obtain ⟨key0', u', sep', hpair'⟩ := hi'.pair key v' rfl
    obtain ⟨e, hne, _, _, rfl⟩ := append_value hp hpair.simple h
    have hs : v.isSimple = true := hpair.simple
    have hs' : v'.isSimple = true := hpair'.simple
    have hcl : v.Clean := hpair.clean
    have hcl' : v'.Clean := hpair'.clean
    refine ⟨rfl, ?_⟩
    unfold Cont.append at h ⊢
    rcases hk : key.parts with _ | ⟨k, _ | ⟨k2, q⟩⟩ <;> simp only [hk] at h ⊢
    · cases h
    · rw [fuelFor_eq hc.skel hv.skel]
      exact hc.append1 hv ((NewEntry.one k hk).clean hs hcl) ((NewEntry.one k hk).clean hs' hcl') h
    · have hl : v.isTableLike = false := by cases v <;> first | rfl | cases hs
      have hl' : v'.isTableLike = false := by cases v' <;> first | rfl | cases hs'
      rw [hl] at h
      rw [hl']
      simp only [Bool.false_eq_true, if_false] at h ⊢
      have hd := dottedChain_skel v key.sep (k2 :: q) none
      have hd' := dottedChain_skel v' key.sep (k2 :: q) none
      rcases ht : dottedChain none (k2 :: q) key.sep v with _ | t
      · rw [ht] at h; cases h
      rw [ht] at h hd
      dsimp only at h
      rw [hv.skel, hd] at hd'
      obtain ⟨t', ht', hsk⟩ := Option.map_eq_some_iff.1 hd'.symm
      rw [ht']
      dsimp only
      have htw : TwinI us (.table t) (.table t') := by
        refine ⟨?_, dottedChain_good closed_PW hv.good ht, dottedChain_good closed_PW hv.good' ht', ?_, ?_⟩
        · show Item.table t'.skel = .table t.skel
          rw [hsk]
        · exact (dottedChain_leaves ht).trans hv.left
        · exact (dottedChain_leaves ht').trans hv.right
      rw [fuelFor_eq hc.skel htw.skel]
      have e1 := (NewEntry.chain (key := key) (v := v) k _ t t.name hk (by simp) ht).clean hs hcl
      have e2 := (NewEntry.chain (key := key) (v := v') k _ t' t'.name hk (by simp) ht').clean hs' hcl'
      refine hc.append1 htw ?_ ?_ h
      · rcases t with ⟨a1, a2, a3, a4, a5, a6⟩; exact e1
      · rcases t' with ⟨a1, a2, a3, a4, a5, a6⟩; exact e2

/-- the check after `raw_append` -/
theorem rawAppend_ok {t : Tbl} {k : Option Key} {v : Item} {c : Cont} {mv : Bool} (h : Cont.append false t.cont k v = .ok (c, mv)) {r : Tbl × Bool} :
    t.rawAppend k v = .ok r ↔ r = (t.setCont c, mv) ∧ ∃ b, (match k.map Key.parts with
        | some (k :: _) => Cont.has (fuelFor c (.null {})) c k.key
        | _ => .ok true) = .ok b := by
  unfold Tbl.rawAppend
  rw [h]
  dsimp only
  rcases k.map Key.parts with _ | ⟨_ | ⟨k0, q⟩⟩
  · exact ⟨fun h => by cases h; exact ⟨rfl, _, rfl⟩, fun h => by rw [h.1]⟩
  · exact ⟨fun h => by cases h; exact ⟨rfl, _, rfl⟩, fun h => by rw [h.1]⟩
  · dsimp only
    rcases Cont.has (fuelFor c (.null {})) c k0.key with e | b
    · constructor
      · intro h; cases h
      · rintro ⟨_, b, h⟩; cases h
    · constructor
      · intro h; cases h; exact ⟨rfl, b, rfl⟩
      · rintro ⟨rfl, _⟩; rfl

theorem TwinC.has {ts : List (Item × Item)} {c c' : Cont} (h : TwinC ts c c') (k : Str) {b : Bool}
    (hb : Cont.has (fuelFor c (.null {})) c k = .ok b) : Cont.has (fuelFor c' (.null {})) c' k = .ok b := by
  rw [fuelFor_eq h.skel rfl]
  have h1 := (append1_skel (fuelFor c (.null {}))).2.1 c k h.good
  have h2 := (append1_skel (fuelFor c (.null {}))).2.1 c' k h.good'
  rw [h.skel, h1, hb] at h2
  rcases hx : Cont.has (fuelFor c (.null {})) c' k with e | b' <;> rw [hx] at h2
  · cases h2
  · cases h2; rfl

theorem TwinT.setCont {ts us : List (Item × Item)} {t t' : Tbl} {c c' : Cont} (h : TwinT ts t t') (hc : TwinC us c c') : TwinT us (t.setCont c) (t'.setCont c') := by
  refine ⟨?_, by rw [setCont_cont, setCont_cont]; exact hc⟩
  rw [Tbl.skel_setCont, Tbl.skel_setCont, h.skel, hc.skel]

theorem TwinT.raw {ts : List (Item × Item)} {t t' : Tbl} {k : Option Key} {v v' : Item} {r : Tbl} {mv : Bool} (ht : TwinT ts t t')
    (h : t.rawAppend k v = .ok (r, mv)) (hc : ∀ c, Cont.append false t.cont k v = .ok (c, mv) →
      ∃ c', Cont.append false t'.cont k v' = .ok (c', mv) ∧ TwinC us c c') :
    ∃ r', t'.rawAppend k v' = .ok (r', mv) ∧ TwinT us r r' := by
  obtain ⟨c, hap, rfl⟩ := rawAppend_inv h
  obtain ⟨c', hap', htw⟩ := hc c hap
  refine ⟨t'.setCont c', (rawAppend_ok hap').2 ⟨rfl, ?_⟩, ht.setCont htw⟩
  obtain ⟨_, b, hb⟩ := (rawAppend_ok hap).1 h
  refine ⟨b, ?_⟩
  revert hb
  rcases k.map Key.parts with _ | ⟨_ | ⟨k0, q⟩⟩
  · exact fun h => h
  · exact fun h => h
  · exact fun h => htw.has _ h

theorem TwinT.rawLine {ts us : List (Item × Item)} {t t' : Tbl} {k : Option Key} {v v' : Item} {r : Tbl} {mv : Bool} {st s st' s' : St}
    (ht : TwinT ts t t') (hv : TwinI us v v') (hi : ItemIs st (some (k, v)) s) (hi' : ItemIs st' (some (k, v')) s')
    (h : t.rawAppend k v = .ok (r, mv)) : mv = false ∧ ∃ r', t'.rawAppend k v' = .ok (r', false) ∧ TwinT (ts ++ us) r r' := by
  obtain ⟨c, hap, _⟩ := rawAppend_inv h
  obtain ⟨rfl, _⟩ := ht.cont.appendLine hv hi hi' hap
  exact ⟨rfl, ht.raw h fun c hc => (ht.cont.appendLine hv hi hi' hc).2⟩

theorem TwinT.rawTable {ts us : List (Item × Item)} {t t' : Tbl} {k : SKey} {v v' : Item} {r : Tbl}
    (ht : TwinT ts t t') (hv : TwinI us v v') (he : (Entry.mk (some k) v).Clean) (he' : (Entry.mk (some k) v').Clean)
    (h : t.rawAppend (some (.single k)) v = .ok (r, false)) : ∃ r', t'.rawAppend (some (.single k)) v' = .ok (r', false) ∧ TwinT (ts ++ us) r r' :=
  ht.raw h fun _ hc => ht.cont.appendTable hv he he' hc

theorem skel_ws {v : Item} {s : Str} {f : Bool} (h : v.skel = .ws s f) : v = .ws s f := by
  cases v <;> first | exact h | cases h

/-- white space after white space -/
theorem TwinC.merge {ts us : List (Item × Item)} {c c' : Cont} {v v' : Item} (hc : TwinC ts c c') (hv : TwinI us v v') :
    (mergeWs c v = none → mergeWs c' v' = none) ∧ ∀ r, mergeWs c v = some r → ∃ r', mergeWs c' v' = some r' ∧ TwinC (ts ++ us) r r' := by
  have hlast : c'.body.getLast?.map Entry.skel = c.body.getLast?.map Entry.skel := by
    rw [← List.getLast?_map, ← List.getLast?_map, ← Cont.skel_body, ← Cont.skel_body, hc.skel]
  by_cases hw : ∃ s f, v = .ws s f
  · obtain ⟨s, f, rfl⟩ := hw
    have hv' : v' = .ws s f := skel_ws hv.skel
    subst hv'
    by_cases hl : ∃ k s2 f2, c.body.getLast? = some (.mk k (.ws s2 f2))
    · obtain ⟨k, s2, f2, hl⟩ := hl
      rw [hl] at hlast
      obtain ⟨⟨k', w⟩, h1, h2⟩ := Option.map_eq_some_iff.1 hlast
      have h3 : k' = k ∧ w.skel = .ws s2 f2 := by
        have : Entry.mk k' w.skel = .mk k (.ws s2 f2) := h2
        exact ⟨(Entry.mk.inj this).1, (Entry.mk.inj this).2⟩
      obtain ⟨rfl, h3⟩ := h3
      have h3 := skel_ws h3
      subst h3
      have hus : us = [] := by
        have := hv.left
        exact (List.map_eq_nil_iff.1 this.symm)
      subst hus
      have hm : ∀ {c : Cont}, c.body.getLast? = some (.mk k' (.ws s2 f2)) → mergeWs c (.ws s f) =
          some (.mk (c.body.dropLast ++ [.mk k' (.ws (s2 ++ s) false)]) c.map c.dict c.parsed c.tableKeys) := by
        intro c h
        unfold mergeWs
        rw [h]
      have hlv : ∀ {c : Cont}, c.body.getLast? = some (.mk k' (.ws s2 f2)) →
          (Cont.mk (c.body.dropLast ++ [.mk k' (.ws (s2 ++ s) false)]) c.map c.dict c.parsed c.tableKeys).leaves = c.leaves := by
        intro c h
        obtain ⟨ys, hy⟩ := List.getLast?_eq_some_iff.1 h
        rw [Cont.leaves_eq, Cont.leaves_eq, Cont.body_mk, hy]
        simp [Item.leaves]
      rw [hm hl, hm h1]
      refine ⟨(fun h => by cases h), ?_⟩
      rintro r hr
      cases hr
      refine ⟨_, rfl, ?_, mergeWs_good hc.good (hm hl), mergeWs_good hc.good' (hm h1), (mergeWs_text hc.clean (hm hl)).1, (mergeWs_text hc.clean' (hm h1)).1, ?_, ?_⟩
      · rw [Cont.skel_mk, Cont.skel_mk, List.map_append, List.map_append, List.map_dropLast, List.map_dropLast, ← Cont.skel_body, ← Cont.skel_body, hc.skel,
          ← Cont.skel_map c', ← Cont.skel_dict c', ← Cont.skel_parsed c', ← Cont.skel_tableKeys c', hc.skel]
        simp
      · rw [hlv hl, hc.left]; simp
      · rw [hlv h1, hc.right]; simp
    · have hn : ∀ {c : Cont}, (¬ ∃ k s2 f2, c.body.getLast? = some (.mk k (.ws s2 f2))) → mergeWs c (.ws s f) = none := by
        intro c h
        unfold mergeWs
        split
        · rename_i k s2 f2 _ _ h1 _
          exact absurd ⟨_, _, _, h1⟩ h
        · rfl
      rw [hn hl]
      refine ⟨fun _ => hn ?_, (fun r h => by cases h)⟩
      rintro ⟨k, s2, f2, h1⟩
      rw [h1] at hlast
      obtain ⟨⟨k', w⟩, g1, g2⟩ := Option.map_eq_some_iff.1 hlast.symm
      have h3 : Entry.mk k' w.skel = .mk k (.ws s2 f2) := g2
      have h3 := skel_ws (Entry.mk.inj h3).2
      subst h3
      exact hl ⟨_, _, _, g1⟩
  · have hn : ∀ {v : Item} (c : Cont), (¬ ∃ s f, v = .ws s f) → mergeWs c v = none := by
      intro v c h
      unfold mergeWs
      split
      · exact absurd ⟨_, _, rfl⟩ h
      · rfl
    rw [hn c hw]
    refine ⟨fun _ => hn c' ?_, fun r h => by cases h⟩
    rintro ⟨s, f, rfl⟩
    exact hw ⟨s, f, skel_ws hv.skel.symm⟩

end Tomlkit
