import Verif.Proofs.KeepAppend
/-!
# What the parser keeps of lines, headers and tables
-/
namespace Tomlkit

theorem wp_and {α : Type} {m : P α} {Q Q' : α → St → Prop} {E E' : Err → St → Prop} {st : St} (h : m.wp Q E st)
    (h' : m.wp Q' E' st) : m.wp (fun a s => Q a s ∧ Q' a s) E st := by
  unfold P.wp at *
  cases hm : m st <;> rw [hm] at h h'
  · exact ⟨h, h'⟩
  · exact h

/-- what is known of the result besides -/
theorem Keeps.also {α : Type} {m : P α} {R Q : α → St → Prop} {E : Err → St → Prop} {st : St} (h : Keeps m R st)
    (h' : m.wp Q E st) : Keeps m (fun a s => R a s ∧ Q a s) st :=
  wp_mono (wp_and h h') (fun _ _ hs => ⟨hs.1.loss, hs.1.suf, fun hl => ⟨hs.1.fact hl, hs.2⟩⟩) fun _ _ h => h

/-! ### one line -/

/-- what `_parse_item` returns and the text of it -/
structure ItemIs (st : St) (r : Option (Option Key × Item)) (s : St) : Prop where
  stop : r = none → s.cur = 91 ∧ st.rest = s.ext ++ s.rest ∧ s.ext ≠ [10]
  blank : ∀ v, r = some (none, v) → Ate st s v.asString ∧ (Entry.mk none v).Clean ∧ v.isTableLike = false
  pair : ∀ k v, r = some (some k, v) → ∃ key u sep, PairIs st true (k, v) s key u sep

theorem parseItem_keeps (st : St) : Keeps parseItem (ItemIs st) st := by
  have h := Tr.refl st
  unfold Keeps parseItem
  refine wp_bind (h.mark fun s0 h0 hr0 he0 _ => ?_)
  refine wp_bind (wp_getSt ?_)
  refine wp_bind (h0.skip fun s h hr he _ => ?_)
  have hs : Ate st s s.ext := by
    have := ate_skip hr
    rw [he, he0, List.nil_append]
    unfold Ate at *; rw [← hr0]; exact this
  have hsp : ∀ c ∈ s.ext, isSpTabCr c = true := by
    rw [he, he0, List.nil_append]
    have := List.all_takeWhile (l := s0.rest) (p := isSpTabCr)
    rwa [List.all_eq_true] at this
  refine wp_bind (wp_getSt (wp_ite (fun hc => ?_) fun _ => wp_ite (fun hc => ?_) fun _ => wp_ite (fun hc => ?_) fun _ =>
    wp_ite (fun hc => ?_) fun _ => ?_))
  · refine wp_bind (h.step fun s1 h hr1 he1 _ => ?_)
    refine wp_bind (wp_extract (h.ret fun _ => ⟨by simp, ?_, by simp⟩))
    rintro v hv; cases hv
    refine ⟨?_, ws_clean _, rfl⟩
    rw [asString_ws, he1]
    exact ate_trans hs (ate_drop hr1)
  · refine h.ret fun _ => ⟨by simp, ?_, by simp⟩
    rintro v hv; cases hv
    exact ⟨hs, ws_clean _, rfl⟩
  · refine wp_bind (wp_extract ?_)
    refine wp_bind (h.call (parseCommentTrail_keeps s) fun a s1 h => ?_)
    obtain ⟨cws, comment, trail⟩ := a
    refine h.ret fun hf => ⟨by simp, ?_, by simp⟩
    rintro v hv; cases hv
    obtain ⟨_, h1, h2, _⟩ := hf
    have hcws : cws = [] := by
      obtain ⟨r, hr⟩ := cur_cons hc (by decide)
      rcases cws with _ | ⟨c, cws⟩
      · rfl
      · exfalso
        unfold Ate at h1
        rw [hr] at h1
        simp only [List.cons_append, List.cons.injEq] at h1
        have := h2 c (List.mem_cons_self ..)
        rw [← h1.1] at this
        exact absurd this (by decide)
    subst hcws
    refine ⟨?_, ⟨trivial, fun h => (by cases h), fun tb h => (by cases h)⟩, rfl⟩
    have := ate_trans hs h1
    rw [asString_comment]
    unfold commentText
    simpa using this
  · refine h.ret fun _ => ⟨fun _ => ⟨hc, hs, ?_⟩, by simp, by simp⟩
    intro h0
    have := hsp 10 (by rw [h0]; simp)
    exact absurd this (by decide)
  · refine wp_bind ?_
    show P.wp (parseKeyValue (valueFuel s0.rest) true) _ _ s0
    refine h0.call ((value_keeps _).2.2.2 s0 true) fun p s1 h1 => ?_
    obtain ⟨k, v⟩ := p
    refine h1.ret fun hf => ⟨by simp, by simp, ?_⟩
    rintro k' v' hv; cases hv
    obtain ⟨_, key, u, sep, hp⟩ := hf
    refine ⟨key, u, sep, ⟨hp.keyIs, hp.fst, hp.simple, hp.clean, ?_, ?_, hp.last, hp.bare⟩⟩
    · have := hp.text
      unfold Ate at *; rw [← hr0]; exact this
    · rw [← hr0]; exact hp.indent

/-! ### headers -/

/-- the header read and its text -/
structure HeaderIs (st : St) (h : Header) (s : St) : Prop where
  indent : h.indent = st.ext
  keyIs : ∃ u, KeyIs h.key u
  text : st.rest = headOpen h.isAot ++ (h.key.asString ++ (headClose h.isAot ++ (h.cws ++ h.comment ++ h.trail ++ s.rest)))
  nl : hasNl h.trail = true ∨ s.rest = []

theorem setSep_same {k : Key} (h : k.sep = []) : k.setSep [] = k := by
  cases k with
  | single k => cases k; simp only [Key.sep] at h; simp [Key.setSep, h]
  | dotted ks s o => simp only [Key.sep] at h; simp [Key.setSep, h]

theorem parseHeader_keeps (st : St) : Keeps parseHeader (HeaderIs st) st := by
  have h := Tr.refl st
  unfold Keeps parseHeader
  refine wp_bind (wp_getSt (wp_ite (fun _ => h.fail) fun hc => ?_))
  have hc : st.cur = 91 := by simpa using hc
  refine wp_bind (wp_extract ?_)
  refine wp_bind (h.step fun s h hr _ _ => ?_)
  have hs : Ate st s [91] := ate_cur hc (by decide) hr
  -- after the key
  have hend : ∀ (b : Bool) (F : Prop) (key : Key) (s' : St), Tr st s' F →
      (F → ∃ u, KeyIs key u ∧ Ate st s' (headOpen b ++ u)) → P.wp (do
        let st' ← getSt
        if st'.atEnd then fail .unexpectedEof
        else if st'.cur ≠ 93 then fail .unexpectedChar
        else
          let key := key.setSep []
          if key.parts.any fun p => (strip p.key).contains 32 && p.t == .bare then fail .generic
          else
            step
            let st' ← getSt
            note (b && st'.cur != 93) .aotClose
            if b then step
            let (cws, comment, trail) ← parseCommentTrail true
            let st' ← getSt
            note (!hasNl trail && !st'.atEnd) .headerCr
            return (⟨st.ext, b, key, cws, comment, trail⟩ : Header))
        (fun h s => Tr st s (HeaderIs st h s)) (ErrK st) s' := by
    intro b F key s' h hF
    refine wp_bind (wp_getSt (wp_ite (fun _ => h.fail) fun _ => wp_ite (fun _ => h.fail) fun hc2 =>
      wp_ite (fun _ => h.fail) fun _ => ?_))
    have hc2 : s'.cur = 93 := by simpa using hc2
    refine wp_bind (h.step fun s1 h hr1 _ _ => ?_)
    have h1 : Ate s' s1 [93] := ate_cur hc2 (by decide) hr1
    refine wp_bind (wp_getSt ?_)
    refine wp_bind (h.note fun s2 h hr2 _ _ => ?_)
    have hfin : ∀ (s3 : St) (G : Prop), Tr st s3 G → (G → F ∧ Ate s' s3 (headClose b)) → P.wp (do
            let (cws, comment, trail) ← parseCommentTrail true
            let st' ← getSt
            note (!hasNl trail && !st'.atEnd) .headerCr
            return (⟨st.ext, b, key.setSep [], cws, comment, trail⟩ : Header))
        (fun h s => Tr st s (HeaderIs st h s)) (ErrK st) s3 := by
      intro s3 G h hG
      refine wp_bind (h.call (parseCommentTrail_keeps s3) fun a s4 h => ?_)
      obtain ⟨cws, comment, trail⟩ := a
      refine wp_bind (wp_getSt (wp_bind (h.note fun s5 h hr5 _ _ => ?_)))
      refine h.ret fun hf => ?_
      obtain ⟨⟨hg, ha, _, _⟩, hn⟩ := hf
      obtain ⟨hf, hcl⟩ := hG hg
      obtain ⟨u, hk, hop⟩ := hF hf
      have hks := setSep_same hk.sep
      refine ⟨rfl, ⟨u, by rw [hks]; exact hk⟩, ?_, ?_⟩
      · show st.rest = headOpen b ++ ((key.setSep []).asString ++ (headClose b ++ (cws ++ comment ++ trail ++ s5.rest)))
        rw [hks, hk.text]
        have := ate_trans (ate_trans hop hcl) ha
        unfold Ate at this
        rw [this, hr5]; simp
      · show hasNl trail = true ∨ s5.rest = []
        rw [hr5]
        simp only [Bool.and_eq_false_iff, Bool.not_eq_false', St.atEnd] at hn
        rcases hn with hn | hn
        · exact Or.inl hn
        · exact Or.inr (by simpa using hn)
    cases b with
    | true =>
      simp only [Bool.true_and, if_true] at h ⊢
      refine wp_bind (h.step fun s3 h hr3 _ _ => ?_)
      refine hfin s3 _ h fun hf => ⟨hf.1, ?_⟩
      have hc3 : s2.cur = 93 := by
        have := hf.2
        unfold St.cur at *
        rw [hr2]; simpa using this
      have h3 : Ate s2 s3 [93] := ate_cur hc3 (by decide) hr3
      have h2 : Ate s' s2 [93] := by unfold Ate at *; rw [hr2]; exact h1
      exact ate_trans h2 h3
    | false =>
      simp only [Bool.false_eq_true, if_false]
      refine hfin s2 _ h fun hf => ⟨hf.1, ?_⟩
      unfold Ate at *; rw [hr2]; exact h1
  refine wp_bind (wp_getSt (wp_ite (fun _ => h.fail) fun _ => ?_))
  by_cases ha : s.cur = 91
  · simp only [ha, decide_true, if_true]
    refine wp_bind (h.step fun s2 h hr2 _ _ => ?_)
    have h2 := ate_trans hs (ate_cur ha (by decide) hr2)
    refine wp_bind (wp_getSt (wp_ite (fun _ => h.fail) fun _ => ?_))
    refine wp_bind (h.call (headerKey_keeps s2) fun k s3 h => ?_)
    refine hend true _ k s3 h ?_
    rintro ⟨_, u, hu, hk⟩
    exact ⟨u, hk, ate_trans h2 hu⟩
  · simp only [ha, decide_false, Bool.false_eq_true, if_false]
    refine wp_bind (wp_getSt (wp_ite (fun _ => h.fail) fun _ => ?_))
    refine wp_bind (h.call (headerKey_keeps s) fun k s3 h => ?_)
    refine hend false _ k s3 h ?_
    rintro ⟨_, u, hu, hk⟩
    exact ⟨u, hk, ate_trans hs hu⟩

/-! ### adding to a table -/

theorem mergeWs_text {c c' : Cont} {v : Item} (hc : c.Clean) (hm : mergeWs c v = some c') :
    c'.Clean ∧ ∀ x : Ctx, x.text c'.body = x.text c.body ++ v.asString := by
  unfold mergeWs at hm
  split at hm
  · rename_i k s f s' f' hl
    cases hm
    rw [Cont.clean_iff] at hc
    have hb : c.body.dropLast ++ [Entry.mk k (.ws s f)] = c.body := by
      have hne : c.body ≠ [] := by intro h0; rw [h0] at hl; cases hl
      have := List.dropLast_concat_getLast hne
      rw [List.getLast?_eq_some_getLast hne, Option.some.injEq] at hl
      rwa [hl] at this
    have hk : k = none := by
      have := hc.2 (.mk k (.ws s f)) (by rw [← hb]; simp)
      cases k with
      | none => rfl
      | some k => exact absurd (this.2.1 rfl) (by simp [Item.isWhitespace])
    subst hk
    refine ⟨?_, ?_⟩
    · rw [Cont.clean_iff]
      refine ⟨hc.1, ?_⟩
      intro e he
      simp only [Cont.body_mk, List.mem_append, List.mem_singleton] at he
      rcases he with he | rfl
      · exact hc.2 e (List.dropLast_subset _ he)
      · exact ws_clean _
    · intro x
      rw [Cont.body_mk]
      conv => rhs; rw [← hb]
      rw [x.text_append, x.text_append, List.append_assoc]
      congr 1
      have h1 : ∀ e, x.text [e] = x.entry e := by intro e; simp [Ctx.text]
      rw [h1, h1]
      cases x <;> rfl
  · cases hm

theorem rawAppend_inv {t t' : Tbl} {k : Option Key} {v : Item} {mv : Bool} (h : t.rawAppend k v = .ok (t', mv)) :
    ∃ c, Cont.append false t.cont k v = .ok (c, mv) ∧ t' = t.setCont c := by
  unfold Tbl.rawAppend at h
  rcases hr : Cont.append false t.cont k v with e | ⟨c, m⟩ <;> rw [hr] at h
  · cases h
  dsimp only at h
  split at h
  · cases h
  · simp only [Except.ok.injEq, Prod.mk.injEq] at h
    exact ⟨c, by rw [h.2], h.1.symm⟩

/-- a line is added -/
theorem append_line {validate : Bool} {c c' : Cont} {mv : Bool} {st s : St} {k : Option Key} {v : Item} (hc : c.Clean)
    (hi : ItemIs st (some (k, v)) s) (h : Cont.append validate c k v = .ok (c', mv)) :
    c'.Clean ∧ ∃ u, Ate st s u ∧ ∀ x : Ctx, x.flat → x.text c'.body = x.text c.body ++ u := by
  have hp := ((Cont.clean_iff c).1 hc).1
  have h1 : ∀ (x : Ctx) e, x.text [e] = x.entry e := by intro x e; simp [Ctx.text]
  cases k with
  | none =>
    obtain ⟨h2, h3, h4⟩ := hi.blank v rfl
    obtain ⟨hb, hp', _⟩ := append_ws hp h4 h
    refine ⟨clean_snoc hc hb hp' (by intro e he; rw [List.mem_singleton] at he; subst he; exact h3), _, h2, ?_⟩
    intro x _
    rw [hb, x.text_append, h1]
    cases x <;> rfl
  | some k =>
    obtain ⟨key, u, sep, hpair⟩ := hi.pair k v rfl
    obtain ⟨e, hne, hb, hp', _⟩ := append_value hp hpair.simple h
    have hfst : k = key.setSep sep := hpair.fst
    subst hfst
    refine ⟨clean_snoc hc hb hp' (by
      intro z hz; rw [List.mem_singleton] at hz; subst hz; exact hne.clean hpair.simple hpair.clean), _, hpair.text, ?_⟩
    intro x hx
    rw [hb, x.text_append, h1]
    congr 1
    exact hne.line hpair.keyIs hpair.simple hpair.clean x hx

/-- a table is added -/
theorem append_table {validate : Bool} {c c' : Cont} {k : SKey} {v : Item} (hc : c.Clean) (he : (Entry.mk (some k) v).Clean)
    (h : Cont.append validate c (some (.single k)) v = .ok (c', false)) : AppText c (.mk (some k) v) c' :=
  (append1_text _).1 _ _ _ _ _ _ hc he h

/-! ### the text of a table -/

/-- the text still to be read from a header on -/
def pend (s : St) : Str := if s.rest = [] then [] else s.ext ++ s.rest
/-- at the end of the text, or at a header whose indentation is no newline -/
def Ready (s : St) : Prop := s.rest = [] ∨ s.ext ≠ [10]

/-- the text of a table with the header `h` -/
def Header.text (h : Header) : Str :=
  h.indent ++ (headOpen h.isAot ++ (h.key.asString ++ (headClose h.isAot ++ (h.cws ++ h.comment ++ h.trail))))

/-- a table made for a header -/
structure LeafIs (h : Header) (tb : Tbl) (u : Str) : Prop where
  clean : tb.Clean
  flag : tb.superFlag = some false
  render : ∀ k pfx, k.dotted = false → tb.render k pfx = u
  elem : h.isAot = true → tb.renderAotElem h.key.asString = u

theorem leaf_is {h : Header} {name : Str} {tb : Tbl} {w : Str} (hs : tb = (h.leaf name).setCont tb.cont) (hc : tb.cont.Clean)
    (hnl : hasNl h.trail = true ∨ tb = h.leaf name) (hw : ∀ ia, (Ctx.tbl false ia h.key.asString).text tb.cont.body = w) :
    LeafIs h tb (h.text ++ w) := by
  rcases tb with ⟨⟨b, m, d, p, tk⟩, t, a, sf, n, dd⟩
  simp only [Header.leaf, Tbl.setCont, Tbl.cont_mk, Tbl.mk.injEq, true_and] at hs
  obtain ⟨rfl, rfl, rfl, rfl, rfl⟩ := hs
  have hd : hasNl h.trail = true ∨ b = [] ∧ d = [] := by
    rcases hnl with h1 | h1
    · exact Or.inl h1
    · simp only [Header.leaf, Tbl.mk.injEq, Cont.empty, Cont.mk.injEq] at h1
      exact Or.inr ⟨h1.1.1, h1.1.2.2.1⟩
  refine ⟨⟨hc, Or.inl ⟨rfl, hd⟩⟩, rfl, ?_, ?_⟩
  · intro k pfx hk
    show tableHeader k pfx _ ++ tableBodyStr k.dotted false h.key.asString b = _
    rw [hk, tableBodyStr_ctx]
    have := hw false
    simp only [Tbl.cont_mk, Cont.body_mk] at this
    rw [this]
    congr 1
    unfold tableHeader
    rw [if_pos (by simp [showsHeader, Tbl.isSuper])]
    have : (!hasNl h.trail && decide (d.length > 0)) = false := by
      rcases hd with h1 | h1
      · rw [h1]; rfl
      · rw [h1.2]; simp
    show h.indent ++ headOpen h.isAot ++ h.key.asString ++ headClose h.isAot ++ h.cws ++ h.comment ++ h.trail ++
      (if (!hasNl h.trail && decide (d.length > 0)) = true then [10] else []) = _
    rw [this]
    simp [Header.text]
  · intro ha
    show aotHeader h.key.asString ⟨h.indent, h.cws, h.comment, h.trail⟩ ++ tableBodyStr false true h.key.asString b = _
    rw [tableBodyStr_ctx]
    have := hw true
    simp only [Tbl.cont_mk, Cont.body_mk] at this
    rw [this]
    simp [aotHeader, Header.text, ha, headOpen, headClose]

/-- an entry as a parser of tables adds it -/
structure KeptTable (k : SKey) (v : Item) : Prop where
  clean : (Entry.mk (some k) v).Clean
  plain : v.isPlain = false

theorem leaf_entry {h : Header} {tb : Tbl} {u : Str} (hl : LeafIs h tb u) (k : SKey) : KeptTable k (.table tb) :=
  ⟨⟨hl.clean, fun _ => rfl, fun t ht hs => by cases ht; rw [hl.flag] at hs; cases hs⟩, rfl⟩

theorem aot_clean {ts : List Tbl} (h : cleanTables ts) (n : Option Str) (k : SKey) :
    KeptTable k (.aot ts { trail := [] } n true) :=
  ⟨⟨⟨rfl, rfl, h⟩, fun _ => rfl, fun t ht => (by cases ht)⟩, rfl⟩

theorem wrapOne_entry {k k0 : SKey} {v : Item} {t : Trivia} {a : Bool} {name : Str} (he : KeptTable k v) (ht : t.indent ≠ [10]) :
    KeptTable k0 (.table (wrapOne k v t a name)) := by
  refine ⟨⟨⟨⟨rfl, he.clean, trivial⟩, Or.inr rfl⟩, fun _ => rfl, ?_⟩, rfl⟩
  rintro tb htb _
  cases htb
  refine ⟨rfl, ht, by simp [wrapOne], fun _ e he' => ?_⟩
  have : e = .mk (some k) v := by simpa [wrapOne] using he'
  subst this
  exact he.plain

theorem leaf_text {h : Header} {tb : Tbl} {u : Str} (hl : LeafIs h tb u) (k : SKey) (hk : k.dotted = false) (x : Ctx) :
    x.entry (.mk (some k) (.table tb)) = u := by
  unfold Ctx.entry
  generalize x.tp _ = tp
  exact hl.render k tp hk

/-- the implicit tables around a table are not seen in the text -/
theorem chain_text {h : Header} {leaf : Tbl} {u : Str} (hl : LeafIs h leaf u) (hi : h.indent ≠ [10]) :
    ∀ (ks : List SKey) (B : Str) (t : Trivia) (a : Bool) (name : Str), ks ≠ [] → t.indent ≠ [10] → (∀ k ∈ ks, k.dotted = false) →
      (h.isAot = true → h.key.asString = B ++ 46 :: joinDot (ks.map SKey.orig)) →
      (∀ k0, KeptTable k0 (.table (h.chain leaf t a name ks))) ∧
      (h.chain leaf t a name ks).superFlag = some true ∧
      (Ctx.tbl false false B).text (h.chain leaf t a name ks).cont.body = u := by
  have h1 : ∀ (x : Ctx) e, x.text [e] = x.entry e := by intro x e; simp [Ctx.text]
  intro ks
  induction ks with
  | nil => intro _ _ _ _ h; exact absurd rfl h
  | cons k r ih =>
    intro B t a name _ ht hd hk
    rcases r with _ | ⟨k2, r⟩
    · have hdk := hd k (List.mem_cons_self ..)
      unfold Header.chain
      refine ⟨?_, rfl, ?_⟩
      · intro k0
        refine wrapOne_entry ?_ ht
        split
        · rw [mkAoT_parsed]
          exact aot_clean (show cleanTables [leaf] from ⟨hl.clean, trivial⟩) _ _
        · exact leaf_entry hl k
      · show (Ctx.tbl false false B).text [_] = u
        rw [h1]
        split
        · rename_i ha
          rw [mkAoT_parsed, aot_entry]
          show aotRender (B ++ 46 :: k.orig) [leaf] = u
          rw [aotRender, aotRender, List.append_nil, ← hl.elem ha, hk ha]
          rfl
        · exact leaf_text hl k hdk _
    · have hdk := hd k (List.mem_cons_self ..)
      unfold Header.chain
      obtain ⟨e1, e2, e3⟩ := ih (B ++ 46 :: k.orig) ⟨h.indent, h.cws, h.comment, h.trail⟩ false k.key (by simp) hi
        (fun z hz => hd z (List.mem_cons_of_mem _ hz)) (by
          intro ha
          rw [hk ha, List.map_cons, joinDot_cons _ _ (by simp)]; simp)
      refine ⟨fun k0 => wrapOne_entry (e1 k) ht, rfl, ?_⟩
      show (Ctx.tbl false false B).text [_] = u
      rw [h1, super_entry _ k hdk _ e2 (e1 k).clean]
      exact e3

end Tomlkit
