import Verif.Proofs.InlineDeep
import Verif.Proofs.ParsedFlat
/-!
# The inline tables of a text
-/
namespace Tomlkit
open _root_.Spec Tomlkit.Spec

/-- a new key at the end, spelled as in the text -/
theorem InlineOk.snocKey {c : Cont} (h : InlineOk c) {sk : SKey} (hk : sk.key ∉ c.dict) {v : Item} (he : IEnt (.mk (some sk) v)) :
    ∃ c', Cont.append true c (some (.single sk)) v = .ok (c', false) ∧ Slot c sk.key (some v) c' := by
  have hm : mapGet sk.key c.map = none := by
    rcases hm : mapGet sk.key c.map with _ | is
    · rfl
    · exact absurd ((h.wf.dictMem sk.key).2 (by rw [hm]; rfl)) hk
  have hvt : v.isTableLike = false := he.plain
  have ht : c.appendTail (some sk) v = .ok (.mk (c.body ++ [.mk (some sk) v]) (mapSet sk.key [c.body.length] c.map)
      (dictSet sk.key c.dict) c.parsed c.tableKeys) := by
    unfold Cont.appendTail
    simp only [h.parsed, Bool.not_true, Bool.and_false, Bool.false_and, Bool.false_eq_true, if_false]
    rw [rawAppend_new_eq hvt hm, h.parsed]
  have ha := append_plain_new (validate := true) hvt hm
  rw [ht] at ha
  rw [dictSet_new hk] at ha
  have hw := h.wf.append ha
  have hmap : ∀ k', mapGet k' (mapSet sk.key [c.body.length] c.map) = if k' = sk.key then some [c.body.length] else mapGet k' c.map := by
    intro k'
    rw [mapGet_mapSet]
    by_cases h : sk.key = k'
    · rw [if_pos h, if_pos h.symm]
    · rw [if_neg h, if_neg fun h0 => h h0.symm]
  refine ⟨_, ha, ⟨⟨h.parsed, hw, ?_, ?_⟩, ?_, ?_, ?_, ?_⟩⟩
  · rw [Cont.dict_mk, Cont.body_mk, keysOf_append, keysOf_single, h.keys]
    simp
  · intro e hx
    rw [Cont.body_mk] at hx
    rcases List.mem_append.1 hx with hx | hx
    · exact h.ents e hx
    · rw [List.mem_singleton] at hx; subst hx; exact he
  · intro k' hk'
    rw [Cont.dict_mk]
    simp [hk']
  · intro k' hk' hd
    obtain ⟨n, key', v', g1, g2, g3, g4⟩ := h.at hd
    rw [g4]
    refine item_of (i := n) (key := some key') (by rw [Cont.map_mk, hmap, if_neg hk']; exact g1) ?_
    rw [Cont.body_mk, List.getElem?_append_left (List.getElem?_eq_some_iff.1 g2).1, g2]
  · rintro w hw
    cases hw
    refine ⟨by rw [Cont.dict_mk]; simp, item_of (i := c.body.length) (key := some sk) (by rw [Cont.map_mk, hmap, if_pos rfl]) ?_⟩
    rw [Cont.body_mk]; simp
  · intro h0; cases h0

/-- a pair of an inline table as it is read -/
theorem pair_in {n : Nat} {st : St} {p : Key × Item} {s : St} (hst : st.loss = []) (h : parseKeyValue (n + 1) false st = .ok p s) (hl : s.loss = []) :
    (∀ sk, p.1 = .single sk → p.2.isDated = false → IEnt (.mk (some sk) p.2)) ∧ (∀ k, p.1.parts = [k] → p.1 = .single k) ∧
    ∃ v0 s1 s2 t, parseValue n s1 = .ok v0 s2 ∧ s1.loss = [] ∧ s2.loss = [] ∧ p.2 = v0.setTrivia t := by
  obtain ⟨_, _, _, hpi⟩ := keeps_fact ((value_keeps (n + 1)).2.2.2 st false) h hl
  obtain ⟨hcm, htr⟩ := hpi.bare rfl
  rcases st with ⟨r, e, a, l⟩
  simp only at hst
  subst hst
  unfold parseKeyValue at h
  obtain ⟨_, s1, q1, h⟩ := bind_ok h
  cases q1
  obtain ⟨_, s1, q1, h⟩ := bind_ok h
  rw [skip_st] at q1
  cases q1
  obtain ⟨ind, s1, q1, h⟩ := bind_ok h
  cases q1
  have hind : Spaces (r.takeWhile isSpaces) := fun c hc => takeWhile_mem c hc
  have hind' : Spaces p.2.trivia.indent := by rw [hpi.indent]; exact hind
  have hd : ∀ c r', r.dropWhile isSpaces = c :: r' → isSpaces c = false := fun c r' hx => dropWhile_stops hx
  generalize r.takeWhile isSpaces = W at *
  generalize r.dropWhile isSpaces = R at *
  obtain ⟨key, s2, q2, h⟩ := bind_ok h
  obtain ⟨sep, s3, q3, h⟩ := bind_ok h
  obtain ⟨val, s4, q4, h⟩ := bind_ok h
  dsimp only at h
  rw [if_neg (by decide)] at h
  cases h
  have m4 := (mono_parseValue _ _ _ _ q4)
  have l3 := loss_nil m4.2 hl
  have m3 := (mono_parseSep _ _ _ q3)
  have l2 := loss_nil m3.2 l3
  have hR := rereads_parsed (q := True) l3 q4 hl
  have hkey : ∀ sk, key.setSep (key.sep ++ sep) = .single sk → KeySep sk := by
    intro sk hsk
    rcases key with k0 | ⟨_, _, _⟩
    · cases hsk
      have q2' : parseKey (R.length + 1) ⟨R, [] ++ W, a, []⟩ = .ok (.single k0) s2 := q2
      rcases s2 with ⟨r2, e2, a2, l2'⟩
      have hend := (keyBody_single (by rw [parseKey_body] at q2'; exact q2')).2.1
      obtain ⟨sp, T, t1, t2, t3, _⟩ := sep_is q3 hend
      obtain ⟨k1, k2, k3⟩ := key_reads q2' l2 hd t1
      refine ⟨k2, [], sp, ?_, by rw [List.append_nil]; exact k1, t3⟩
      show k0.sep ++ sep = _
      rw [k3, t2]
    · cases hsk
  have hone : ∀ p, (key.setSep (key.sep ++ sep)).parts = [p] → key.setSep (key.sep ++ sep) = .single p := by
    obtain ⟨u, _, hki⟩ := keeps_fact (parseKeyHere_keeps _) q2 l2
    intro p hp
    rcases key with k0 | ⟨_, _, _⟩
    · cases hp; rfl
    · have := hki.one p (by simpa [Key.setSep, Key.parts] using hp)
      cases this
  refine ⟨fun sk hsk hday => .kv (hkey sk hsk) (hR _) hind' hcm (by rw [htr]; rfl) hday, hone, val, s3, _, _, q4, l3, hl, rfl⟩

/-- what holds of the table while it is read -/
def TabInv (c : Cont) : Prop := c.parsed = true ∧ (PlainInline c → InlineOk c ∧ ∀ k v, c.item k = .ok (.inl v) → Neat v)

theorem tabInv_empty : TabInv (Cont.empty true) := by
  refine ⟨rfl, fun _ => ⟨⟨rfl, ?_, rfl, fun e he => by cases he⟩, fun k v h => ?_⟩⟩
  · exact fbody_empty.wf
  · obtain ⟨_, _, hm, _⟩ := item_single.1 h
    cases hm

theorem plain_prefix {c c' : Cont} {e : Entry} (hb : c'.body = c.body ++ [e]) (hp : c.parsed = true) (h : PlainInline c') : PlainInline c :=
  ⟨hp, fun x hx => h.2 x (by rw [hb]; simp [hx])⟩

theorem addWs_tab {c c' : Cont} {raw : Str} {st s : St} (h : addWs c raw st = .ok c' s) (hr : Spaces raw) (hc : TabInv c) : TabInv c' ∧ s = st := by
  unfold addWs at h
  rcases he : raw.isEmpty with _ | _ <;> rw [he] at h
  · rw [if_neg (by decide), append_none_plain (v := .ws raw false) rfl] at h
    cases h
    refine ⟨⟨hc.1, fun hp => ?_⟩, rfl⟩
    obtain ⟨h1, h2⟩ := hc.2 (plain_prefix (c := c) rfl hc.1 hp)
    have ha : Cont.append true c none (.ws raw false) = _ := append_none_plain (v := .ws raw false) rfl
    refine ⟨⟨hc.1, h1.wf.append ha, ?_, ?_⟩, fun k v h => h2 k v ?_⟩
    · rw [Cont.dict_mk, Cont.body_mk, keysOf_append, keysOf_single, h1.keys]; simp
    · intro e hx
      rw [Cont.body_mk] at hx
      rcases List.mem_append.1 hx with hx | hx
      · exact h1.ents e hx
      · rw [List.mem_singleton] at hx; subst hx; exact .ws hr
    · have hk : k ∈ c.dict := by
        obtain ⟨i, _, hm, _⟩ := item_single.1 h
        exact (h1.wf.dictMem k).2 (by rw [Cont.map_mk] at hm; rw [hm]; rfl)
      obtain ⟨n, key', v', g1, g2, g3, g4⟩ := h1.at hk
      obtain ⟨i, e', hm, hb, hv⟩ := item_single.1 h
      rw [Cont.map_mk, g1] at hm
      cases hm
      rw [Cont.body_mk, List.getElem?_append_left (List.getElem?_eq_some_iff.1 g2).1, g2] at hb
      cases hb
      rw [g4]; exact congrArg (fun x => Except.ok (Sum.inl x)) hv
  · rw [if_pos rfl] at h
    cases h
    exact ⟨hc, rfl⟩

theorem append_tab {c c' : Cont} {mv : Bool} {key : Key} {v : Item} (hc : TabInv c) (hs : v.isSimple = true)
    (hkey : ∀ sk, key = .single sk → v.isDated = false → IEnt (.mk (some sk) v)) (hone : ∀ k, key.parts = [k] → key = .single k)
    (hv : Neat v) (h : Cont.append true c (some key) v = .ok (c', mv)) : TabInv c' := by
  obtain ⟨e, he, hb, hp, _⟩ := append_value hc.1 hs h
  refine ⟨hp, fun hpl => ?_⟩
  obtain ⟨h1, h2⟩ := hc.2 (plain_prefix hb hc.1 hpl)
  have he' := hpl.2 e (by rw [hb]; simp)
  cases he with
  | chain k r t nm hp hr ht => cases (he' _ rfl).1
  | one k hp =>
    have hk := hone k hp
    subst hk
    have hday : v.isDated = false := by
      have := (he' k rfl).2
      cases v <;> first | rfl | exact this.elim
    by_cases hkd : k.key ∈ c.dict
    · obtain ⟨n, _, _, hm, _⟩ := h1.at hkd
      rw [append_plain_present h1.wf (v := v) (hkey k rfl hday).plain hm] at h
      cases h
    · obtain ⟨c2, g1, g2⟩ := h1.snocKey hkd (hkey k rfl hday)
      rw [g1] at h
      cases h
      have := g2.neat h2 (fun w hw => by cases hw; exact hv) {}
      exact this.inv hpl

theorem rstripChars_brace (cs : Str) (hc : cs.contains 123 = false) (b : Str) : ∃ x, rstripChars cs (123 :: b) = 123 :: x := by
  unfold rstripChars
  rw [List.reverse_cons]
  rcases h : (b.reverse.dropWhile fun c => cs.contains c) with _ | ⟨d, r⟩
  · have : ((b.reverse ++ [123]).dropWhile fun c => cs.contains c) = [123] := by
      rw [List.dropWhile_append, h]
      simp only [List.isEmpty_nil, if_true]
      rw [List.dropWhile_cons_of_neg (by rw [hc]; decide)]
    rw [this]
    exact ⟨[], rfl⟩
  · have : ((b.reverse ++ [123]).dropWhile fun c => cs.contains c) = d :: r ++ [123] := by
      rw [List.dropWhile_append, h]
      rfl
    rw [this, List.reverse_append]
    exact ⟨_, rfl⟩

theorem inlineLoop_brace (new : Bool) (last : Option Nat) (len : Nat) : ∀ (es : List Entry) (i : Nat) (b : Str), ∃ x, inlineLoop new last len i (123 :: b) es = 123 :: x
  | [], i, b => ⟨b, by rw [inlineLoop]⟩
  | e :: r, i, b => by
    rw [inlineLoop]
    rcases e with ⟨_ | k, v⟩
    · dsimp only [Entry.key]
      split
      · obtain ⟨x, hx⟩ := rstripChars_brace (if new then t!", " else t!",") (by cases new <;> decide) b
        rw [hx]
        exact inlineLoop_brace new last len r _ _
      · exact inlineLoop_brace new last len r _ _
    · dsimp only [Entry.key]
      rcases last with _ | l
      · exact inlineLoop_brace new _ len r _ _
      · dsimp only
        split
        · exact inlineLoop_brace new _ len r _ _
        · exact inlineLoop_brace new _ len r _ _

/-- The inline tables of a text are as described. -/
theorem neat_parse : ∀ n, (∀ st v s, parseValue n st = .ok v s → st.loss = [] → s.loss = [] → Neat v) ∧
    (∀ tc c st c' s, inlineParse n tc c st = .ok c' s → st.loss = [] → s.loss = [] → TabInv c → TabInv c') := by
  intro n
  induction n using Nat.strongRecOn with
  | _ n ih =>
  refine ⟨fun st v s h hst hl => ?_, fun tc c st c' s h hst hl hc => ?_⟩
  · rcases n with _ | n
    · rw [parseValue] at h; cases h
    rcases Classical.em (∃ ci t, v = .inline ci t false) with hi | hi
    rotate_left
    · exact .other fun ci t h0 => hi ⟨ci, t, h0⟩
    obtain ⟨ci, t, rfl⟩ := hi
    have hv := keeps_fact ((value_keeps (n + 1)).1 st) h hl
    have hcur : st.cur = 123 := by
      have := hv.text
      unfold Ate at this
      rcases st with ⟨r, e, a, l⟩
      simp only at this
      obtain ⟨x, hx⟩ : ∃ x, ci.inlineString false = 123 :: x := by
        rcases ci with ⟨b, _, _, _, _⟩
        obtain ⟨x, hx⟩ := inlineLoop_brace false (lastKeyIdx b) b.length b 0 []
        exact ⟨x ++ [125], by rw [Cont.inlineString, hx]; rfl⟩
      rw [this, show (Item.inline ci t false).asString = ci.inlineString false from rfl, hx]
      rfl
    rw [parseValue, mark_bind, getSt_bind] at h
    have hcur : (St.mk st.rest [] st.aot st.loss).cur = 123 := hcur
    rw [hcur, if_neg (by decide), if_neg (by decide), if_neg (by decide), if_neg (by decide), if_neg (by decide), if_pos rfl] at h
    obtain ⟨_, s1, q1, h⟩ := bind_ok h
    obtain ⟨c', s2, q2, h⟩ := bind_ok h
    cases h
    have l1 := loss_nil (mono_inlineParse _ _ _ _ _ _ q2).2 hl
    have hx := (ih n (by omega)).2 _ _ _ _ _ q2 l1 hl tabInv_empty
    by_cases hp : PlainInline ci
    · obtain ⟨g1, g2⟩ := hx.2 hp
      exact .table g1 g2
    · exact .odd hp
  · rcases n with _ | n
    · rw [inlineParse] at h; cases h
    rw [inlineParse_tail] at h
    obtain ⟨c1, s1, q1, h⟩ := bind_ok h
    obtain ⟨hc1, rfl⟩ := addWs_tab q1 (fun c hc => takeWhile_mem c hc) hc
    unfold inlineTail at h
    rw [getSt_bind] at h
    split at h
    · obtain ⟨_, _, _, h⟩ := bind_ok h
      cases h
      exact hc1
    split at h
    · cases h
    split at h
    · cases h
    obtain ⟨⟨key, val⟩, s2, q2, h⟩ := bind_ok h
    dsimp only at h
    obtain ⟨⟨c2, mv⟩, s3, q3, h⟩ := bind_ok h
    obtain ⟨_, s4, q4, h⟩ := bind_ok h
    rw [getSt_bind] at h
    obtain ⟨_, s5, q5, h⟩ := bind_ok h
    obtain ⟨c3, s6, q6, h⟩ := bind_ok h
    rw [getSt_bind] at h
    obtain ⟨_, s7, q7, h⟩ := bind_ok h
    have q3' : Cont.append true c1 (some key) val = .ok (c2, mv) ∧ s3 = s2 := by
      unfold lift at q3
      rcases ha : Cont.append true c1 (some key) val with _ | x <;> rw [ha] at q3 <;> cases q3
      exact ⟨rfl, rfl⟩
    obtain ⟨q3', hs3⟩ := q3'
    have fin : s7.loss = [] ∧ (TabInv c3 → TabInv c') := by
      split at h
      · obtain ⟨_, s8, q8, h⟩ := bind_ok h
        obtain ⟨_, s9, q9, h⟩ := bind_ok h
        have l9 := loss_nil (mono_inlineParse _ _ _ _ _ _ h).2 hl
        exact ⟨loss_nil (mono_note _ _ _ _ _ q8).2 (loss_nil (mono_stepE _ _ _ q9).2 l9), (ih n (by omega)).2 _ _ _ _ _ h l9 hl⟩
      · have l7 := loss_nil (mono_inlineParse _ _ _ _ _ _ h).2 hl
        exact ⟨l7, (ih n (by omega)).2 _ _ _ _ _ h l7 hl⟩
    obtain ⟨l7, fin⟩ := fin
    have l6 := loss_nil (mono_note _ _ _ _ _ q7).2 l7
    have l5 := loss_nil (mono_addWs _ _ _ _ _ q6).2 l6
    have l4 := loss_nil (mono_skip _ _ _ _ q5).2 l5
    have l3 := loss_nil (mono_note _ _ _ _ _ q4).2 l4
    rw [hs3] at l3
    rcases n with _ | n
    · unfold parseKeyValue at q2; cases q2
    obtain ⟨p1, p2, v0, t1, t2, tv, p3, p4, p5, p6⟩ := pair_in (by exact hst) q2 l3
    obtain ⟨_, _, _, hpi⟩ := keeps_fact ((value_keeps (n + 1)).2.2.2 _ false) q2 l3
    have hv0 := (ih n (by omega)).1 _ _ _ p3 p4 p5
    simp only at p6
    have hc2 := append_tab hc1 hpi.simple p1 p2 (by rw [p6]; exact hv0.setTrivia _) q3'
    exact fin (addWs_tab q6 (fun c hc => takeWhile_mem c hc) hc2).1

end Tomlkit
