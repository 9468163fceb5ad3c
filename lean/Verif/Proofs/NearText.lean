import Verif.Proofs.Near
import Verif.Proofs.Replace
import Verif.Proofs.FlatRows
import Verif.Spec.DeepEdit
/-!
# Near containers: text, edits
-/
namespace Tomlkit
open _root_.Spec Tomlkit.Spec

/-! ### lines that are written alike are a document that is written alike -/

theorem near_isSuper {Q : Item → Item → Prop} {t t' : Tbl} (h : t.Near Q t') : t'.isSuper = t.isSuper := by
  rcases t with ⟨c, t, a, s, n, d⟩
  obtain ⟨c', rfl, _, hs⟩ := h
  rcases s with _ | s
  · exact absurd rfl hs
  · rfl

/-- the prefix given to a table -/
def tablePrefix (kd ia : Bool) (key : Str) (e : Entry) : Option Str :=
  match e.v with
  | .table tb => if tb.isSuper && isDottedKey e.key && (ia || !kd) then none else some key
  | _ => some key

theorem tableBodyStr_cons (kd ia : Bool) (key : Str) (e : Entry) (r : List Entry) : tableBodyStr kd ia key (e :: r) =
    e.render (tablePrefix kd ia key e) (if kd && !ia then some key else none) ++ tableBodyStr kd ia key r := rfl

theorem line_text {v w : Item} (h : LineBack v w) (key : Option SKey) (tp sp : Option Str) : (Entry.mk key w).render tp sp = (Entry.mk key v).render tp sp := by
  rcases key with _ | k
  · exact h.text
  · rw [render_simple h.wsimple, render_simple h.simple, h.text]
    have h1 : simpleHead k w.trivia sp = simpleHead k v.trivia sp := by unfold simpleHead; rw [h.indent]
    have h2 : simpleTail w.trivia = simpleTail v.trivia := h.tail
    rw [h1, h2]

mutual
theorem Item.near_text : (v w : Item) → v.Near LineBack w → w.asString = v.asString
  | .ws .., _, h => by cases h; rfl
  | .comment _, _, h => by cases h; rfl
  | .null _, _, h => by cases h; rfl
  | .table tb, _, h => by obtain ⟨tb', rfl, h⟩ := h; exact (Tbl.near_text tb tb' h).1
  | .aot ts _ _ _, _, h => by obtain ⟨ts', rfl, h⟩ := h; exact (tables_near_text ts ts' h).1
  | .integer .., _, h => h.2.text
  | .float .., _, h => h.2.text
  | .bool .., _, h => h.2.text
  | .datetime .., _, h => h.2.text
  | .date .., _, h => h.2.text
  | .time .., _, h => h.2.text
  | .str .., _, h => h.2.text
  | .array .., _, h => h.2.text
  | .inline .., _, h => h.2.text
theorem Tbl.near_text : (t t' : Tbl) → t.Near LineBack t' → t'.asString = t.asString ∧ (∀ k pfx, t'.render k pfx = t.render k pfx) ∧
    (∀ key, t'.renderAotElem key = t.renderAotElem key)
  | .mk c t a s n d, _, h => by
    have hsup := near_isSuper h
    obtain ⟨c', rfl, h, _⟩ := h
    obtain ⟨h1, h2, h3, h4⟩ := Cont.near_text c c' h
    refine ⟨h1, ?_, ?_⟩
    · intro k pfx
      show tableHeader k pfx (.mk c' t a s n d) ++ c'.renderBody _ _ (tableKeyText k pfx (.mk c t a s n d)) =
        tableHeader k pfx (.mk c t a s n d) ++ c.renderBody _ _ (tableKeyText k pfx (.mk c t a s n d))
      rw [h2]
      congr 1
      unfold tableHeader showsHeader
      simp only [Tbl.cont_mk, h3, h4, hsup]
      rfl
    · intro key
      show aotHeader key t ++ c'.renderBody false true key = aotHeader key t ++ c.renderBody false true key
      rw [h2]
theorem Cont.near_text : (c c' : Cont) → c.Near LineBack c' → c'.asString = c.asString ∧
    (∀ kd ia key, c'.renderBody kd ia key = c.renderBody kd ia key) ∧
    c'.body.any (fun e => e.v.isPlain) = c.body.any (fun e => e.v.isPlain) ∧ c'.dict = c.dict
  | .mk b m d p tk, _, h => by
    obtain ⟨b', m', rfl, _, h, _⟩ := h
    obtain ⟨h1, h2, h3⟩ := entries_near_text b b' h
    exact ⟨h1, h2, h3, rfl⟩
theorem entries_near_text : (b b' : List Entry) → nearEntries LineBack b b' → bodyStr b' = bodyStr b ∧
    (∀ kd ia key, tableBodyStr kd ia key b' = tableBodyStr kd ia key b) ∧
    b'.any (fun e => e.v.isPlain) = b.any (fun e => e.v.isPlain)
  | [], _, h => by cases h; exact ⟨rfl, fun _ _ _ => rfl, rfl⟩
  | e :: r, _, h => by
    obtain ⟨e', r', rfl, h1, h2⟩ := h
    obtain ⟨k1, k2, k3⟩ := Entry.near_text e e' h1
    obtain ⟨g1, g2, g3⟩ := entries_near_text r r' h2
    refine ⟨?_, ?_, ?_⟩
    · show e'.render none none ++ bodyStr r' = e.render none none ++ bodyStr r
      rw [k1, g1]
    · intro kd ia key
      rw [tableBodyStr_cons, tableBodyStr_cons, g2, k1, k3]
    · show (e'.v.isPlain || r'.any _) = (e.v.isPlain || r.any _)
      rw [k2, g3]
theorem Entry.near_text : (e e' : Entry) → e.Near LineBack e' → (∀ tp sp, e'.render tp sp = e.render tp sp) ∧
    e'.v.isPlain = e.v.isPlain ∧ ∀ kd ia key, tablePrefix kd ia key e' = tablePrefix kd ia key e
  | .mk key v, _, h => by
    obtain ⟨v', rfl, h, _⟩ := h
    have hv := Item.near_text v v' h
    refine ⟨?_, h.kinds.2.2.2.1, ?_⟩
    · intro tp sp
      cases key with
      | none => exact hv
      | some k =>
        cases v with
        | table tb => obtain ⟨tb', rfl, h⟩ := h; exact (Tbl.near_text tb tb' h).2.1 k tp
        | aot ts t n p => obtain ⟨ts', rfl, h⟩ := h; exact (tables_near_text ts ts' h).2 _
        | ws => cases h; rfl
        | comment => cases h; rfl
        | null => cases h; rfl
        | _ => exact line_text h.2 _ _ _
    · intro kd ia key
      cases v with
      | table tb =>
        obtain ⟨tb', rfl, h⟩ := h
        show (if (tb'.isSuper && _ && _) = true then _ else _) = (if (tb.isSuper && _ && _) = true then _ else _)
        rw [near_isSuper h]
        rfl
      | aot ts t n p => obtain ⟨ts', rfl, h⟩ := h; rfl
      | ws => cases h; rfl
      | comment => cases h; rfl
      | null => cases h; rfl
      | _ =>
        have := h.1
        cases v' <;> first | rfl | cases this
theorem tables_near_text : (b b' : List Tbl) → nearTables LineBack b b' → aotStr b' = aotStr b ∧ (∀ key, aotRender key b' = aotRender key b)
  | [], _, h => by cases h; exact ⟨rfl, fun _ => rfl⟩
  | t :: r, _, h => by
    obtain ⟨t', r', rfl, h1, h2⟩ := h
    obtain ⟨k1, _, k3⟩ := Tbl.near_text t t' h1
    obtain ⟨g1, g2⟩ := tables_near_text r r' h2
    refine ⟨?_, ?_⟩
    · show t'.asString ++ aotStr r' = t.asString ++ aotStr r
      rw [k1, g1]
    · intro key
      show t'.renderAotElem key ++ aotRender key r' = t.renderAotElem key ++ aotRender key r
      rw [k3, g2]
end

/-! ### replacing a value -/

theorem lineValue_simple (v : Item) : isLineValue v = v.isSimple := by cases v <;> rfl

theorem near_tbl {Q : Item → Item → Prop} {t t' : Tbl} (h : t.Near Q t') : t.cont.Near Q t'.cont ∧ t'.trivia = t.trivia ∧
    ∀ c1, t.cont.Near Q c1 → t.Near Q (t'.setCont c1) := by
  rcases t with ⟨c, t, a, s, n, d⟩
  obtain ⟨c', rfl, h, hs⟩ := h
  exact ⟨h, rfl, fun c1 h1 => ⟨c1, rfl, h1, hs⟩⟩

/-- what is known of near containers -/
theorem near_cont {Q : Item → Item → Prop} {c c' : Cont} (h : c.Near Q c') : ListRel (Entry.Near Q) c.body c'.body ∧
    (∀ k, mapGet k c'.map = mapGet k c.map) ∧ c'.dict = c.dict ∧ c'.parsed = false ∧ c.parsed = false ∧ c'.tableKeys = c.tableKeys ∧
    ∀ b m, ListRel (Entry.Near Q) c.body b → (∀ k, mapGet k m = mapGet k c.map) → c.Near Q (.mk b m c'.dict c'.parsed c'.tableKeys) := by
  rcases c with ⟨b, m, d, p, tk⟩
  obtain ⟨b', m', rfl, rfl, h1, h2⟩ := h
  exact ⟨nearEntries_iff.1 h1, h2, rfl, rfl, rfl, rfl, fun b m h h' => ⟨b, m, rfl, rfl, nearEntries_iff.2 h, h'⟩⟩

theorem near_back {Q : Item → Item → Prop} {e e' : Entry} (h : e.Near Q e') : e'.key = e.key ∧ e.v.Near Q e'.v ∧
    ∀ w, e.v.Near Q w → e.Near Q (.mk e'.key w) := by
  rcases e with ⟨k, v⟩
  obtain ⟨v', rfl, h, hs⟩ := h
  exact ⟨rfl, h, fun w hw => ⟨w, rfl, hw, hs⟩⟩

theorem near_set {U : Item → Item → Prop} {k : Str} {v : Item} (hv : IsValue v) (hvs : v.isSimple = true) {key : SKey} {old : Item}
    (hU : ∀ o, U o old → U o (v.setTrivia old.trivia)) (path : List Step) :
    ∀ {h : Holder} {o c : Cont}, o.Good Cont.WF → o.Near U c → lineAt path c k = some (key, old) →
    ∃ c', Cont.atPath (.set k v) path h c = .ok c' ∧ o.Near U c' ∧ lineAt path c' k = some (key, v.setTrivia old.trivia) ∧
      ∀ p k', ¬(p = path ∧ k' = k) → lineAt p c' k' = lineAt p c k' := by
  have hvs' : (v.setTrivia old.trivia).isSimple = true := by cases v <;> first | rfl | cases hvs
  induction path with
  | nil =>
    intro h o c hg hn hf
    have hwf := ((Cont.good_iff _).1 hg).1
    obtain ⟨n1, n2, _, _, _, _, n7⟩ := near_cont hn
    unfold lineAt at hf
    rcases hm : mapGet k c.map with _ | is
    · rw [hm] at hf; cases hf
    rcases is with _ | ⟨i, _ | ⟨_, _⟩⟩ <;> rw [hm] at hf <;> try (cases hf; done)
    dsimp only at hf
    rcases hb : c.body[i]? with _ | ⟨_ | sk, w⟩ <;> rw [hb] at hf <;> dsimp only at hf <;> try (cases hf; done)
    split at hf
    case isFalse => cases hf
    rename_i hw
    cases hf
    rw [lineValue_simple] at hw
    rcases n1.at i with ⟨_, h2⟩ | ⟨e, e', h1, h2, h3⟩
    · rw [hb] at h2; cases h2
    rw [hb] at h2
    cases h2
    obtain ⟨b1, b2, b3⟩ := near_back h3
    have hek : e.key = some key := b1.symm
    obtain ⟨ke, hke, hk⟩ := mapGet_key hwf (by rw [← n2]; exact hm) (show o.body[i]? = some (.mk e.key e.v) from by rw [h1]; cases e; rfl)
    rw [hek] at hke
    cases hke
    have hlt := (List.getElem?_eq_some_iff.1 hb).1
    have hold : old.isTableLike = false := by cases old <;> first | rfl | cases hw
    have hes : e.v.isSimple = true := by rw [← b2.simple]; exact hw
    have hmap : ∀ k', mapGet k' (mapSet k [i] (mapDel k c.map)) = mapGet k' o.map := by
      intro k'
      rw [mapGet_mapSet]
      by_cases hkk : k' = k
      · subst hkk; rw [if_pos rfl, ← n2, hm]
      · rw [if_neg (by first | exact hkk | exact fun h => hkk h.symm), mapGet_mapDel, if_neg (by first | exact hkk | exact fun h => hkk h.symm), n2]
    refine ⟨_, run_set_value hm hb hk hold hv, ?_, ?_, ?_⟩
    · refine n7 _ _ (n1.put h1 ?_) hmap
      exact b3 _ ((near_simple hes).2 ⟨hvs', hU _ ((near_simple hes).1 b2).2⟩)
    · unfold lineAt
      rw [Cont.map_mk, mapGet_mapSet, if_pos rfl]
      dsimp only
      rw [Cont.body_mk, List.getElem?_set, if_pos rfl, if_pos hlt]
      dsimp only
      rw [lineValue_simple, hvs', if_pos rfl]
    · intro p k' hpk
      have hnt : (∀ tb, old ≠ .table tb) ∧ ∀ ts t n p, old ≠ .aot ts t n p := by
        refine ⟨?_, ?_⟩ <;> intros <;> rintro rfl <;> cases hw
      have hnt' : (∀ tb, v.setTrivia old.trivia ≠ .table tb) ∧ ∀ ts t n p, v.setTrivia old.trivia ≠ .aot ts t n p := by
        refine ⟨?_, ?_⟩ <;> intros <;> intro h0 <;> rw [h0] at hvs' <;> cases hvs'
      rcases p with _ | ⟨s | ⟨s, j⟩, r⟩
      · unfold lineAt
        rw [Cont.map_mk, hmap, n2]
        rcases hm' : mapGet k' o.map with _ | is
        · rfl
        rcases is with _ | ⟨i', _ | ⟨_, _⟩⟩ <;> dsimp only
        have hne : i ≠ i' := by
          rintro rfl
          obtain ⟨ke, hke, hk'⟩ := mapGet_key hwf hm' (show o.body[i]? = some (.mk e.key e.v) from by rw [h1]; cases e; rfl)
          rw [hek] at hke
          cases hke
          exact hpk ⟨rfl, hk'.symm.trans hk⟩
        rw [Cont.body_mk, List.getElem?_set_ne hne]
      · unfold lineAt
        rw [Cont.map_mk, hmap, n2]
        rcases hm' : mapGet s o.map with _ | is
        · rfl
        rcases is with _ | ⟨i', _ | ⟨_, _⟩⟩ <;> dsimp only
        by_cases hne : i = i'
        · subst hne
          rw [Cont.body_mk, List.getElem?_set, if_pos rfl, if_pos hlt, hb]
          try dsimp only
          generalize v.setTrivia old.trivia = v0 at hnt'
          rcases old with _ | _ | _ | _ | _ | _ | _ | _ | _ | _ | _ | tb | _ | _ <;> rcases v0 with _ | _ | _ | _ | _ | _ | _ | _ | _ | _ | _ | tb | _ | _ <;>
            first | rfl | exact absurd rfl (hnt.1 _) | exact absurd rfl (hnt'.1 _)
        · rw [Cont.body_mk, List.getElem?_set_ne hne]
      · unfold lineAt
        rw [Cont.map_mk, hmap, n2]
        rcases hm' : mapGet s o.map with _ | is
        · rfl
        rcases is with _ | ⟨i', _ | ⟨_, _⟩⟩ <;> dsimp only
        by_cases hne : i = i'
        · subst hne
          rw [Cont.body_mk, List.getElem?_set, if_pos rfl, if_pos hlt, hb]
          try dsimp only
          generalize v.setTrivia old.trivia = v0 at hnt'
          rcases old with _ | _ | _ | _ | _ | _ | _ | _ | _ | _ | _ | tb | _ | _ <;> rcases v0 with _ | _ | _ | _ | _ | _ | _ | _ | _ | _ | _ | tb | _ | _ <;>
            first | rfl | exact absurd rfl (hnt.2 _ _ _ _) | exact absurd rfl (hnt'.2 _ _ _ _)
        · rw [Cont.body_mk, List.getElem?_set_ne hne]
  | cons s r ih =>
    intro h o c hg hn hf
    have hwf := ((Cont.good_iff _).1 hg).1
    obtain ⟨n1, n2, _, _, _, _, n7⟩ := near_cont hn
    have huniq : ∀ {a b : Str} {i : Nat} {e : Entry}, mapGet a c.map = some [i] → mapGet b c.map = some [i] → o.body[i]? = some e → a = b := by
      intro a b i e ha hb he
      rw [n2] at ha hb
      obtain ⟨ke, h1, h2⟩ := mapGet_key hwf ha (show o.body[i]? = some (.mk e.key e.v) from by rw [he]; cases e; rfl)
      obtain ⟨ke', h3, h4⟩ := mapGet_key hwf hb (show o.body[i]? = some (.mk e.key e.v) from by rw [he]; cases e; rfl)
      rw [h1] at h3
      cases h3
      rw [← h2, ← h4]
    rcases s with s | ⟨s, j⟩ <;> unfold lineAt at hf <;> unfold Cont.atPath
    · rcases hm : mapGet s c.map with _ | is
      · rw [hm] at hf; cases hf
      rcases is with _ | ⟨i, _ | ⟨_, _⟩⟩ <;> rw [hm] at hf <;> try (cases hf; done)
      dsimp only at hf ⊢
      rcases hb : c.body[i]? with _ | ⟨sk, w⟩ <;> rw [hb] at hf <;> try dsimp only at hf ⊢
      · cases hf
      have hlt := (List.getElem?_eq_some_iff.1 hb).1
      rcases n1.at i with ⟨_, h2⟩ | ⟨e, e', h1, h2, h3⟩
      · rw [hb] at h2; cases h2
      rw [hb] at h2
      cases h2
      obtain ⟨b1, b2, b3⟩ := near_back h3
      rcases w with _ | _ | _ | _ | _ | _ | _ | _ | _ | _ | ⟨ci, t, new⟩ | tb | ⟨ts, t, nm, p⟩ | _ <;> dsimp only at hf ⊢ <;>
        try (cases hf; done)
      have hgt := good_at hg (show o.body[i]? = some (.mk e.key e.v) from by rw [h1]; cases e; rfl)
      have b2 : e.v.Near U (.table tb) := b2
      have hkind := b2.kinds.1
      rcases hev : e.v with _ | _ | _ | _ | _ | _ | _ | _ | _ | _ | _ | te | _ | _ <;> rw [hev] at hkind <;> try (cases hkind; done)
      rw [hev] at b2 hgt b3
      obtain ⟨tb', htb, b2⟩ := b2
      cases htb
      obtain ⟨t1, t2, t3⟩ := near_tbl b2
      obtain ⟨c1, g1, g2, g3, g4⟩ := ih (h := .table tb.trivia) ((Tbl.good_iff _).1 hgt) t1 hf
      rw [g1]
      refine ⟨_, rfl, ?_, ?_, ?_⟩
      · refine n7 _ _ (n1.put h1 (b3 _ ⟨_, rfl, t3 _ g2⟩)) n2
      · unfold lineAt
        rw [Cont.map_mk, hm]
        dsimp only
        rw [Cont.body_mk, List.getElem?_set, if_pos rfl, if_pos hlt]
        dsimp only
        rw [(setCont_fields tb c1).1]
        exact g3
      · intro p k' hpk
        rcases p with _ | ⟨s' | ⟨s', j'⟩, r'⟩ <;> unfold lineAt <;> rw [Cont.map_mk]
        · rcases hm' : mapGet k' c.map with _ | is
          · rfl
          rcases is with _ | ⟨i', _ | ⟨_, _⟩⟩ <;> dsimp only
          by_cases hne : i = i'
          · subst hne
            rw [Cont.body_mk, List.getElem?_set, if_pos rfl, if_pos hlt, hb]
            rcases sk with _ | sk <;> rfl
          · rw [Cont.body_mk, List.getElem?_set_ne hne]
        · rcases hm' : mapGet s' c.map with _ | is
          · rfl
          rcases is with _ | ⟨i', _ | ⟨_, _⟩⟩ <;> dsimp only
          by_cases hne : i = i'
          · subst hne
            rw [Cont.body_mk, List.getElem?_set, if_pos rfl, if_pos hlt, hb]
            dsimp only
            rw [(setCont_fields tb c1).1]
            refine g4 r' k' fun hrk => hpk ⟨?_, hrk.2⟩
            rw [hrk.1, huniq hm' hm h1]
          · rw [Cont.body_mk, List.getElem?_set_ne hne]
        · rcases hm' : mapGet s' c.map with _ | is
          · rfl
          rcases is with _ | ⟨i', _ | ⟨_, _⟩⟩ <;> dsimp only
          by_cases hne : i = i'
          · subst hne
            rw [Cont.body_mk, List.getElem?_set, if_pos rfl, if_pos hlt, hb]
          · rw [Cont.body_mk, List.getElem?_set_ne hne]
    · rcases hm : mapGet s c.map with _ | is
      · rw [hm] at hf; cases hf
      rcases is with _ | ⟨i, _ | ⟨_, _⟩⟩ <;> rw [hm] at hf <;> try (cases hf; done)
      dsimp only at hf ⊢
      rcases hb : c.body[i]? with _ | ⟨sk, w⟩ <;> rw [hb] at hf <;> try dsimp only at hf ⊢
      · cases hf
      have hlt := (List.getElem?_eq_some_iff.1 hb).1
      rcases n1.at i with ⟨_, h2⟩ | ⟨e, e', h1, h2, h3⟩
      · rw [hb] at h2; cases h2
      rw [hb] at h2
      cases h2
      obtain ⟨b1, b2, b3⟩ := near_back h3
      rcases w with _ | _ | _ | _ | _ | _ | _ | _ | _ | _ | ⟨ci, t, new⟩ | tb | ⟨ts, t, nm, p⟩ | _ <;> dsimp only at hf ⊢ <;>
        try (cases hf; done)
      rcases hj : ts[j]? with _ | tb <;> rw [hj] at hf <;> dsimp only at hf ⊢
      · cases hf
      have hltj := (List.getElem?_eq_some_iff.1 hj).1
      have hgt := good_at hg (show o.body[i]? = some (.mk e.key e.v) from by rw [h1]; cases e; rfl)
      have b2 : e.v.Near U (.aot ts t nm p) := b2
      have hkind := b2.kinds.2.1
      rcases hev : e.v with _ | _ | _ | _ | _ | _ | _ | _ | _ | _ | _ | _ | ⟨tse, te, nme, pe⟩ | _ <;> rw [hev] at hkind <;> try (cases hkind; done)
      rw [hev] at b2 hgt b3
      obtain ⟨ts', hts, b2⟩ := b2
      cases hts
      rw [nearTables_iff] at b2
      rcases b2.at j with ⟨_, h2⟩ | ⟨te, tb', j1, j2, j3⟩
      · rw [hj] at h2; cases h2
      rw [hj] at j2
      cases j2
      obtain ⟨t1, t2, t3⟩ := near_tbl j3
      have hgj := (Tbl.good_iff _).1 ((Item.good_aot _ _ _ _).1 hgt _ (List.mem_of_getElem? j1))
      obtain ⟨c1, g1, g2, g3, g4⟩ := ih (h := .table tb.trivia) hgj t1 hf
      rw [g1]
      refine ⟨_, rfl, ?_, ?_, ?_⟩
      · refine n7 _ _ (n1.put h1 (b3 _ ⟨_, rfl, nearTables_iff.2 (b2.put j1 (t3 _ g2))⟩)) n2
      · unfold lineAt
        rw [Cont.map_mk, hm]
        dsimp only
        rw [Cont.body_mk, List.getElem?_set, if_pos rfl, if_pos hlt]
        dsimp only
        rw [List.getElem?_set, if_pos rfl, if_pos hltj]
        dsimp only
        rw [(setCont_fields tb c1).1]
        exact g3
      · intro p k' hpk
        rcases p with _ | ⟨s' | ⟨s', j'⟩, r'⟩ <;> unfold lineAt <;> rw [Cont.map_mk]
        · rcases hm' : mapGet k' c.map with _ | is
          · rfl
          rcases is with _ | ⟨i', _ | ⟨_, _⟩⟩ <;> dsimp only
          by_cases hne : i = i'
          · subst hne
            rw [Cont.body_mk, List.getElem?_set, if_pos rfl, if_pos hlt, hb]
            rcases sk with _ | sk <;> rfl
          · rw [Cont.body_mk, List.getElem?_set_ne hne]
        · rcases hm' : mapGet s' c.map with _ | is
          · rfl
          rcases is with _ | ⟨i', _ | ⟨_, _⟩⟩ <;> dsimp only
          by_cases hne : i = i'
          · subst hne
            rw [Cont.body_mk, List.getElem?_set, if_pos rfl, if_pos hlt, hb]
          · rw [Cont.body_mk, List.getElem?_set_ne hne]
        · rcases hm' : mapGet s' c.map with _ | is
          · rfl
          rcases is with _ | ⟨i', _ | ⟨_, _⟩⟩ <;> dsimp only
          by_cases hne : i = i'
          · subst hne
            rw [Cont.body_mk, List.getElem?_set, if_pos rfl, if_pos hlt, hb]
            dsimp only
            by_cases hnj : j = j'
            · subst hnj
              rw [List.getElem?_set, if_pos rfl, if_pos hltj, hj]
              dsimp only
              rw [(setCont_fields tb c1).1]
              refine g4 r' k' fun hrk => hpk ⟨?_, hrk.2⟩
              rw [hrk.1, huniq hm' hm h1]
            · rw [List.getElem?_set_ne hnj]
          · rw [Cont.body_mk, List.getElem?_set_ne hne]

end Tomlkit
