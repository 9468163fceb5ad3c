import Verif.Proofs.QuietValues
import Verif.Proofs.Hist
import Verif.Proofs.Lockstep
/-!
# Lines and tables of ordinary texts write nothing to the log
-/
namespace Tomlkit
open _root_.Spec Tomlkit.Spec

theorem cur_eq {s s' : St} (h : s.rest = s'.rest) : s.cur = s'.cur := by unfold St.cur; rw [h]

/-- one line -/
theorem parseItem_quiet {T : Str} (hC : CalmValues T) (st : St) (h : Still T st) (hl : AtLine T st) :
    parseItem.wp (fun r s => s.loss = [] ∧ (r ≠ none → AtLine T s) ∧ (r = none → AtHead T s)) (fun _ _ => True) st := by
  unfold parseItem
  refine wp_bind (h.mark fun s0 h0 hr0 he0 => ?_)
  refine wp_bind (wp_getSt (wp_bind (h0.skip fun s h hr he => ?_)))
  rw [he0, List.nil_append] at he
  refine wp_bind (wp_getSt (wp_ite (fun hc => ?_) fun _ => wp_ite (fun hc => ?_) fun _ => wp_ite (fun hc => ?_) fun _ =>
    wp_ite (fun hc => ?_) fun _ => ?_))
  · refine wp_bind (h.step fun s1 h1 hr1 => wp_bind (wp_extract ?_))
    exact ⟨h1.loss, fun _ => atLine_nl h.suf hc hr1, fun h => (by cases h)⟩
  · refine ⟨h.loss, fun _ => Or.inl ?_, fun h => (by cases h)⟩
    simp only [St.atEnd, Bool.and_eq_true, List.isEmpty_iff] at hc
    exact hc.1
  · refine wp_bind (wp_extract (wp_bind ?_))
    refine wp_mono (wp_both (mute_parseCommentTrail true s) (commentTrail_line hC.cr s h)) ?_ fun _ _ _ => trivial
    rintro a s1 ⟨h1, h2⟩
    exact ⟨h1.trans h.loss, fun _ => h2.1, fun h => (by cases h)⟩
  · refine ⟨h.loss, fun h => absurd rfl h, fun _ => ?_⟩
    rcases hl with hl | ⟨pre, hpre, hls⟩
    · left
      rw [hr, hr0, hl]; rfl
    · have hsp : st.rest = s.ext ++ s.rest := by rw [he, hr, hr0, List.takeWhile_append_dropWhile]
      refine Or.inr ⟨hc, ?_, pre, by rw [hpre, hsp], hls⟩
      intro c hm
      have hall := List.all_takeWhile (l := s0.rest) (p := isSpTabCr)
      rw [List.all_eq_true] at hall
      have hall : ∀ c ∈ s.ext, isSpTabCr c = true := by rw [he]; exact hall
      have h1 := hall c hm
      have hne : c ≠ 13 := by
        rintro rfl
        obtain ⟨a, b, hab⟩ := List.append_of_mem hm
        obtain ⟨q, hq⟩ := hC.cr (pre ++ a) (b ++ s.rest) (by rw [hpre, hsp, hab]; simp)
        rcases b with _ | ⟨b0, b⟩
        · obtain ⟨r, hr⟩ := cur_cons hc (by decide)
          rw [List.nil_append, hr] at hq
          cases hq
        · simp only [List.cons_append, List.cons.injEq] at hq
          have := hall b0 (by rw [hab]; simp)
          rw [hq.1] at this; cases this
      unfold isSpTabCr at h1
      unfold isSpaces
      simp only [Bool.or_eq_true, beq_iff_eq] at h1 ⊢
      omega
  · refine wp_bind ?_
    have hs0 : Still T s0 := h0
    refine wp_mono ((value_quiet hC _).2.2.2 s0 true hs0) ?_ fun _ _ _ => trivial
    rintro ⟨k, v⟩ s1 ⟨h1, _, h2⟩
    exact ⟨h1, fun _ => h2 rfl, fun h => (by cases h)⟩

/-- the key of a header in a line without dots and backslashes has one part -/
theorem headKey_one {k : Key} {u r : Str} (hk : KeyIs k u) (hn : NlEsc u) (h46 : 46 ∉ (u ++ r).takeWhile (· != 10))
    (h92 : 92 ∉ (u ++ r).takeWhile (· != 10)) : k.parts.length = 1 := by
  have h10 : 10 ∉ u := by
    intro hm
    have hspl : ∀ l : Str, 10 ∈ l → l = l.takeWhile (· != 10) ++ 10 :: (l.drop ((l.takeWhile (· != 10)).length + 1)) := by
      intro l
      induction l with
      | nil => intro h; cases h
      | cons a l ih =>
        intro h
        rw [List.takeWhile_cons]
        by_cases ha : a = 10
        · subst ha; simp
        · rw [if_pos (by simpa using ha)]
          rcases List.mem_cons.1 h with h | h
          · exact absurd h.symm ha
          · conv => lhs; rw [ih h]
            simp
    have := hn _ _ (hspl u hm)
    apply h92
    rw [List.takeWhile_append]
    split
    · exact List.mem_append_left _ (by exact (List.takeWhile_prefix _).subset this)
    · exact this
  have hu : ∀ c ∈ u, (c != 10) = true := by
    intro c hc
    rw [bne_iff_ne]
    rintro rfl
    exact h10 hc
  have h46u : 46 ∉ u := by
    intro hm
    apply h46
    rw [List.takeWhile_append_of_pos hu]
    exact List.mem_append_left _ hm
  have hp := hk.parts
  rcases hps : k.parts with _ | ⟨p, _ | ⟨q, ps⟩⟩
  · exact absurd hps hk.ne
  · rfl
  · exfalso
    rw [hps] at hp
    simp only [List.map_cons] at hp
    rw [joinDot_cons _ _ (by simp)] at hp
    apply h46u
    rw [← hp]; simp

/-- where the line of a header begins -/
def headPos (T : Str) (s : St) : Nat := T.length - (s.ext.length + s.rest.length)

/-- the first name of an array of tables does not come again before the last -/
def FirstOnce (P : List (Str × Str)) : Prop := ∀ a m b, P = a :: (m ++ [b]) → ∀ q ∈ m, q.2 ≠ a.2

/-- what a header says -/
structure Told (T : Str) (A : HeadRel) (st : St) (aot : Bool) (k : Key) (P : List (Str × Str)) : Prop where
  key : HeadKey k P
  hd : Hd A (headPos T st) aot P
  indent : st.ext = [] ∨ P.length ≤ 2
  clear : aot = true → FirstOnce P

theorem pos_lt {T : Str} {s s' : St} (h : AtHead T s) (h' : AtHead T s') (hl : s'.rest.length < s.rest.length) (hs : s'.rest ≠ []) :
    headPos T s < headPos T s' := by
  have hne : s.rest ≠ [] := by intro h0; rw [h0] at hl; simp at hl
  obtain ⟨hc, hsp, pre, hpre, _⟩ := h.resolve_left hne
  obtain ⟨hc', hsp', pre', hpre', _⟩ := h'.resolve_left hs
  obtain ⟨w, hw⟩ := cur_cons hc (by decide)
  have l1 : headPos T s = pre.length := by
    have := congrArg List.length hpre
    unfold headPos; simp at this ⊢; omega
  have l2 : headPos T s' = pre'.length := by
    have := congrArg List.length hpre'
    unfold headPos; simp at this ⊢; omega
  have e1 := congrArg List.length hpre
  have e2 := congrArg List.length hpre'
  simp at e1 e2
  rcases Nat.lt_or_ge (headPos T s) (headPos T s') with h | h
  · exact h
  exfalso
  -- the bracket is in the indentation
  have hb : T[pre.length + s.ext.length]? = some 91 := by
    rw [hpre, hw, ← List.append_assoc, List.getElem?_append_right (by simp)]
    simp
  rw [hpre', List.getElem?_append_right (by omega), List.getElem?_append_left (by omega)] at hb
  have := hsp' _ (List.mem_of_getElem? hb)
  cases this

theorem headerKey_one {T : Str} (s : St) (h : Still T s) (h46 : 46 ∉ s.rest.takeWhile (· != 10))
    (h92 : 92 ∉ s.rest.takeWhile (· != 10)) :
    headerKey.wp (fun k s' => Still T s' ∧ k.parts.length = 1 ∧ HeadKey k (pairs k)) (fun _ _ => True) s := by
  refine h.call mute_headerKey ((headerKey_keeps s).also (headerKey_nl s)) (fun k s' h' hk => ⟨h', ?_⟩) fun _ _ _ => trivial
  obtain ⟨⟨u, hu, hk⟩, hk2⟩ := hk
  obtain ⟨u', hu', hn⟩ := hk2.fact h'.loss
  have : u' = u := by
    unfold Ate at hu hu'
    rw [hu] at hu'
    exact (List.append_cancel_right hu').symm
  subst this
  unfold Ate at hu
  rw [hu] at h46 h92
  refine ⟨headKey_one hk hn h46 h92, rfl, fun p hp => (hk.plain p hp).1, ?_, hk.one, ?_⟩
  · rw [hk.text, ← hk.parts]
    simp [pairs]; rfl
  · have := hk.ne
    simpa [pairs] using this

/-- what is known at a header -/
theorem head_at {T : Str} (hC : Calm T) {st : St} (hh : AtHead T st) (hne : st.rest ≠ []) : ∃ w, st.rest = 91 :: w ∧
    ∀ s, Still T s → s.rest = (if w.head? = some 91 then w.tail else w) →
      headerKey.wp (fun k s' => Still T s' ∧ (s'.cur = 93 → (∃ P, Told T (HeaderAt T) st (w.head? == some 91) k P) ∧
        (w.head? = some 91 → ∃ r, s'.rest = 93 :: 93 :: r))) (fun _ _ => True) s := by
  obtain ⟨hc, hsp, pre, hpre, hls⟩ := hh.resolve_left hne
  obtain ⟨w, hw⟩ := cur_cons hc (by decide)
  have hpos : headPos T st = pre.length := by
    have := congrArg List.length hpre
    unfold headPos; simp at this ⊢; omega
  refine ⟨w, hw, fun s h hr => ?_⟩
  have hstill : headerKey.wp (fun k s' => Still T s') (fun _ _ => True) s :=
    h.call mute_headerKey (headerKey_keeps s) (fun _ _ h _ => h) fun _ _ _ => trivial
  have hnone : ∀ w', s.rest = w' → NoName w' → headerKey.wp (fun _ s => s.cur = 44) (fun _ _ => True) s := by
    rintro w' rfl hn
    exact headerKey_none hn s.ext s.aot s.loss
  have hno : headerKey.wp (fun _ s => s.cur = 44) (fun _ _ => True) s → headerKey.wp (fun k s' => Still T s' ∧ (s'.cur = 93 →
      (∃ P, Told T (HeaderAt T) st (w.head? == some 91) k P) ∧ (w.head? = some 91 → ∃ r, s'.rest = 93 :: 93 :: r))) (fun _ _ => True) s := by
    intro hn
    refine wp_mono (wp_both hstill hn) ?_ fun _ _ _ => trivial
    rintro k s' ⟨h1, h2⟩
    exact ⟨h1, fun h3 => by rw [h2] at h3; cases h3⟩
  have hTw : T = pre ++ (st.ext ++ 91 :: w) := by rw [hpre, hw]
  rcases hC.head pre st.ext w hTw hls hsp with (⟨h1, h2⟩ | ⟨w', rfl, h2⟩) | ⟨h1, h46, h92, hna⟩ |
    ⟨aot, P, hH, hind, hcl⟩
  · rw [if_neg h1] at hr
    exact hno (hnone w hr h2)
  · rw [if_pos (show (91 :: w').head? = some 91 from rfl)] at hr
    exact hno (hnone w' hr h2)
  · rw [if_neg h1] at hr
    refine wp_mono (headerKey_one s h (by rw [hr]; exact h46) (by rw [hr]; exact h92)) ?_ fun _ _ _ => trivial
    rintro k s1 ⟨g1, g2, g3⟩
    have hb : (w.head? == some 91) = false := by simpa using h1
    have hl : (pairs k).length = 1 := by rw [← g3.length]; exact g2
    rw [hb]
    exact ⟨g1, fun _ => ⟨⟨pairs k, g3, .inr ⟨rfl, hna, hl⟩, .inr (by omega), fun h => by cases h⟩, fun h => absurd h h1⟩⟩
  · have hat : HeaderAt T (headPos T st) aot P := ⟨pre, st.ext, w, hTw, hpos.symm, hls, hsp, hH⟩
    obtain ⟨H, r, hP, hwe⟩ := hH
    have hb : (w.head? == some 91) = aot := by
      cases aot
      · obtain ⟨c, q, rfl, hc⟩ := path_head hP
        rw [hwe]; simpa using hc
      · rw [hwe]; rfl
    have htold : ∀ K, HeadKey K P → Told T (HeaderAt T) st aot K P := fun K hK => ⟨hK, .inl hat, hind, hcl⟩
    rw [hb]
    cases aot
    · have hne91 : w.head? ≠ some 91 := by simpa using hb
      rw [if_neg hne91, hwe, if_neg (by decide)] at hr
      obtain ⟨K, e', hK, hk⟩ := headerKey_path hP r s.ext s.aot s.loss
      have hs : s = ⟨H ++ 93 :: r, s.ext, s.aot, s.loss⟩ := by cases s; simp at hr; simp [hr]
      unfold Tomlkit.P.wp at hstill ⊢
      rw [hs, hK] at hstill ⊢
      exact ⟨hstill, fun _ => ⟨⟨P, htold K hk⟩, fun h => absurd h hne91⟩⟩
    · have h91 : w.head? = some 91 := by simpa using hb
      rw [if_pos h91, hwe, if_pos rfl] at hr
      obtain ⟨K, e', hK, hk⟩ := headerKey_path hP (93 :: r) s.ext s.aot s.loss
      have hs : s = ⟨H ++ 93 :: 93 :: r, s.ext, s.aot, s.loss⟩ := by cases s; simp at hr; simp [hr]
      unfold Tomlkit.P.wp at hstill ⊢
      rw [hs, hK] at hstill ⊢
      exact ⟨hstill, fun _ => ⟨⟨P, htold K hk⟩, fun _ => ⟨r, rfl⟩⟩⟩

theorem head_eq (w : Str) : decide ((⟨w, [], [], []⟩ : St).cur = 91) = (w.head? == some 91) := by
  cases w with
  | nil => rfl
  | cons c w => simp [St.cur]; rfl

theorem parseHeader_quiet {T : Str} (hC : Calm T) (st : St) (h : Still T st) (hh : AtHead T st) (hne : st.rest ≠ []) :
    parseHeader.wp (fun d s => Still T s ∧ AtLine T s ∧ d.indent = st.ext ∧ ∃ P, Told T (HeaderAt T) st d.isAot d.key P) (fun _ _ => True) st := by
  obtain ⟨w, hw, hkey⟩ := head_at hC hh hne
  unfold parseHeader
  refine wp_bind (wp_getSt (wp_ite (fun _ => trivial) fun _ => ?_))
  refine wp_bind (wp_extract (wp_bind (h.step fun s h hr => ?_)))
  have hsw : s.rest = w := by rw [hr, hw]; rfl
  have hcur : decide (s.cur = 91) = (w.head? == some 91) := by
    rw [← head_eq w]
    congr 1
    rw [cur_eq (s' := ⟨w, [], [], []⟩) hsw]
  refine wp_bind (wp_getSt (wp_ite (fun _ => trivial) fun _ => ?_))
  rw [hcur]
  clear hcur
  rcases hb : (w.head? == some 91) with _ | _
  · have hn : w.head? ≠ some 91 := by simpa using hb
    rw [if_neg (by decide)]
    refine wp_bind (wp_getSt (wp_ite (fun _ => trivial) fun _ => ?_))
    refine wp_bind (wp_mono (hkey s h (by rw [hsw]; exact (if_neg hn).symm)) ?_ fun _ _ _ => trivial)
    rintro k s1 ⟨h, hk⟩
    refine wp_bind (wp_getSt (wp_ite (fun _ => trivial) fun _ => wp_ite (fun _ => trivial) fun hc => wp_ite (fun _ => trivial) fun _ => ?_))
    have hc : s1.cur = 93 := by simpa using hc
    obtain ⟨⟨P, hP⟩, hcl⟩ := hk hc
    rw [hb] at hP
    refine wp_bind (h.step fun s2 h hr => ?_)
    refine wp_bind (wp_getSt (wp_bind (h.note rfl ?_)))
    rw [if_neg (by decide)]
    refine wp_bind (wp_mono (wp_both (mute_parseCommentTrail true s2) (wp_both (parseCommentTrail_keeps s2) (commentTrail_line hC.cr s2 h))) ?_ fun _ _ _ => trivial)
    rintro ⟨cws, comment, trail⟩ s3 ⟨h1, h2, h3, h4⟩
    have hs3 : Still T s3 := ⟨h2.suf.trans h.suf, h1.trans h.loss⟩
    refine wp_bind (wp_getSt (wp_bind (hs3.note ?_ ?_)))
    · rcases h4 with h4 | h4
      · simp [St.atEnd, h4]
      · have : hasNl trail = true := h4
        rw [this]; rfl
    · exact ⟨hs3, h3, rfl, P, hP.key.setSep [], hP.hd, hP.indent, hP.clear⟩
  · have hn : w.head? = some 91 := by simpa using hb
    rw [if_pos rfl]
    refine wp_bind (h.step fun s h hr2 => ?_)
    have hsw : s.rest = w.tail := by rw [hr2, hsw]; simp
    refine wp_bind (wp_getSt (wp_ite (fun _ => trivial) fun _ => ?_))
    refine wp_bind (wp_mono (hkey s h (by rw [hsw]; exact (if_pos hn).symm)) ?_ fun _ _ _ => trivial)
    rintro k s1 ⟨h, hk⟩
    refine wp_bind (wp_getSt (wp_ite (fun _ => trivial) fun _ => wp_ite (fun _ => trivial) fun hc => wp_ite (fun _ => trivial) fun _ => ?_))
    have hc : s1.cur = 93 := by simpa using hc
    obtain ⟨⟨P, hP⟩, hcl⟩ := hk hc
    rw [hb] at hP
    refine wp_bind (h.step fun s2 h hr => ?_)
    refine wp_bind (wp_getSt (wp_bind (h.note ?_ ?_)))
    · obtain ⟨r, hr2⟩ := hcl hn
      have : s2.cur = 93 := by
        unfold St.cur; rw [hr, hr2]; rfl
      rw [this]; rfl
    rw [if_pos rfl]
    refine wp_bind (h.step fun s2 h hr => ?_)
    refine wp_bind (wp_mono (wp_both (mute_parseCommentTrail true s2) (wp_both (parseCommentTrail_keeps s2) (commentTrail_line hC.cr s2 h))) ?_ fun _ _ _ => trivial)
    rintro ⟨cws, comment, trail⟩ s3 ⟨h1, h2, h3, h4⟩
    have hs3 : Still T s3 := ⟨h2.suf.trans h.suf, h1.trans h.loss⟩
    refine wp_bind (wp_getSt (wp_bind (hs3.note ?_ ?_)))
    · rcases h4 with h4 | h4
      · simp [St.atEnd, h4]
      · have : hasNl trail = true := h4
        rw [this]; rfl
    · exact ⟨hs3, h3, rfl, P, hP.key.setSep [], hP.hd, hP.indent, hP.clear⟩

/-! ### tables -/

theorem append_line_quiet {validate : Bool} {c c' : Cont} {mv : Bool} {st s : St} {k : Option Key} {v : Item} (hc : c.Clean)
    (hi : ItemIs st (some (k, v)) s) (h : Cont.append validate c k v = .ok (c', mv)) : mv = false := by
  have hp := ((Cont.clean_iff c).1 hc).1
  cases k with
  | none =>
    obtain ⟨_, _, h4⟩ := hi.blank v rfl
    exact (append_ws hp h4 h).2.2
  | some k =>
    obtain ⟨key, u, sep, hpair⟩ := hi.pair k v rfl
    obtain ⟨e, _, _, _, h4⟩ := append_value hp hpair.simple h
    exact h4

/-- what is read as a line is entered as one -/
theorem append_line_entries {validate : Bool} {c c' : Cont} {mv : Bool} {st s : St} {k : Option Key} {v : Item} (hc : c.Clean)
    (hi : ItemIs st (some (k, v)) s) (h : Cont.append validate c k v = .ok (c', mv)) (hl : ∀ e ∈ c.body, LineEntry e) :
    ∀ e ∈ c'.body, LineEntry e := by
  have hp := ((Cont.clean_iff c).1 hc).1
  have hno : ∀ v : Item, v.isTableLike = false → ∀ ts t nm p, v ≠ .aot ts t nm p := by
    rintro v hv ts t nm p rfl; cases hv
  have hsn : ∀ e, c'.body = c.body ++ [e] → LineEntry e → ∀ e ∈ c'.body, LineEntry e := by
    intro e hb he x hx
    rw [hb] at hx
    rcases List.mem_append.1 hx with hx | hx
    · exact hl x hx
    · rw [List.mem_singleton] at hx; subst hx; exact he
  cases k with
  | none =>
    obtain ⟨_, _, h4⟩ := hi.blank v rfl
    exact hsn _ (append_ws hp h4 h).1 ⟨(fun k hk => by cases hk), hno v h4⟩
  | some k =>
    obtain ⟨key, u, sep, hpair⟩ := hi.pair k v rfl
    obtain ⟨e, he, hb, _, _⟩ := append_value hp hpair.simple h
    have hs : v.isTableLike = false := by
      have := hpair.simple
      cases v <;> first | rfl | cases this
    refine hsn e hb ?_
    cases he with
    | one k h => exact ⟨fun _ _ _ => hs, hno v hs⟩
    | chain k r t nm h hr ht =>
      refine ⟨fun k hk hd => ?_, fun _ _ _ _ h => by cases h⟩
      cases hk
      cases hd

theorem mergeWs_entries {c c' : Cont} {v : Item} (hm : mergeWs c v = some c') (hl : ∀ e ∈ c.body, LineEntry e) :
    ∀ e ∈ c'.body, LineEntry e := by
  unfold mergeWs at hm
  split at hm
  · rename_i k s f s' f' hla
    cases hm
    intro e he
    rw [Cont.body_mk] at he
    rcases List.mem_append.1 he with he | he
    · exact hl e (List.dropLast_subset _ he)
    · rw [List.mem_singleton] at he; subst he
      exact ⟨fun _ _ _ => rfl, fun _ _ _ _ h => by cases h⟩
  · cases hm

/-! ### names -/

theorem eqv_names {a b : Key} (h : Key.eqv a b = true) : a.parts.map SKey.key = b.parts.map SKey.key := by
  cases a <;> cases b <;> simp [Key.eqv] at h
  · simp [Key.parts, h]
  · simpa [Key.parts] using h

theorem setSep_namesOf (k : Key) (s : Str) : (k.setSep s).parts.map SKey.key = k.parts.map SKey.key := by cases k <;> rfl

theorem setSep_eqv (k : Key) (s : Str) (b : Key) : Key.eqv (k.setSep s) b = Key.eqv k b := by cases k <;> cases b <;> rfl

theorem isChild_names {p q : Key} (h : isChild p q = true) : p.parts.map SKey.key <+: q.parts.map SKey.key ∧ p.parts.length < q.parts.length := by
  unfold isChild at h
  dsimp only at h
  split at h
  · cases h
  · rename_i hne
    rw [decide_eq_true_eq] at h
    have hpre : p.parts.map SKey.key <+: q.parts.map SKey.key := by rw [h]; exact List.take_prefix _ _
    refine ⟨hpre, ?_⟩
    have hl := hpre.length_le
    rw [List.length_map, List.length_map] at hl
    rcases Nat.lt_or_ge p.parts.length q.parts.length with h1 | h1
    · exact h1
    · exact absurd (hpre.eq_of_length (by simp; omega)) hne

theorem joinDot_join (a b : List Str) (ha : a ≠ []) (hb : b ≠ []) : joinDot (a ++ b) = joinDot a ++ 46 :: joinDot b := by
  induction a with
  | nil => exact absurd rfl ha
  | cons x r ih =>
    rcases r with _ | ⟨y, r⟩
    · rw [List.singleton_append, joinDot_cons _ _ hb]; rfl
    · rw [List.cons_append, joinDot_cons _ _ (by simp), ih (by simp), joinDot_cons x (y :: r) (by simp)]; simp

/-- the names of an enclosing table, spelled in the same way -/
theorem prefix_spelled {A : HeadRel} (hC : HeadsFit A) {n n' : Nat} {a' : Bool} {P P' : List (Str × Str)} (h : Hd A n true P) (h' : Hd A n' a' P')
    (hp : names P' <+: names P) : P' <+: P := by
  have g := h.aot
  have g' := h'.of_aot g
  have hs := hC.spelling _ _ _ _ _ _ g g' (.inr rfl)
  clear h h' g g'
  induction P' generalizing P with
  | nil => exact List.nil_prefix
  | cons x P' ih =>
    cases P with
    | nil => simp [names] at hp
    | cons y P =>
      simp only [names, List.map_cons, List.cons_prefix_cons] at hp
      have : x = y := Prod.ext (hs y (by simp) x (by simp) hp.1.symm).symm hp.1
      rw [List.cons_prefix_cons]
      exact ⟨this, ih hp.2 fun q hq q' hq' => hs q (by simp [hq]) q' (by simp [hq'])⟩

/-! ### what a header opens -/

theorem header_piece (h : Header) (leaf : Tbl) (h1 : leaf.superFlag = some false) (h2 : leaf.isAot = h.isAot) (h3 : leaf.name.isSome = true) :
    ∀ (ks : List SKey), ks ≠ [] → (∀ p ∈ ks, p.dotted = false) → (h.indent = [] ∨ ks.length ≤ 1) → ∀ (t : Trivia), t.indent = [] →
    ∀ (k : SKey) (name : Str), k.dotted = false →
    Piece h.isAot ((k.orig, k.key) :: ks.map fun p => (p.orig, p.key)) k (.table (h.chain leaf t false name ks))
  | [], hne, _, _, _, _, _, _, _ => absurd rfl hne
  | [p], _, hd, _, t, ht, k, name, hk => by
    unfold Header.chain
    have hv : Piece h.isAot [(p.orig, p.key)] p (if h.isAot then mkAoT [leaf] (some name) true else .table leaf) := by
      cases ha : h.isAot
      · exact .leaf p leaf h1 (h2.trans ha) h3 rfl (hd p (by simp))
      · exact .arr p _ _ _ _ rfl rfl (hd p (by simp))
    exact .chain k _ p _ _ rfl rfl rfl ht hk rfl rfl rfl hv
  | p :: q :: r, _, hd, hi, t, ht, k, name, hk => by
    unfold Header.chain
    have hi : h.indent = [] := by
      rcases hi with hi | hi
      · exact hi
      · simp at hi
    have := header_piece h leaf h1 h2 h3 (q :: r) (by simp) (fun x hx => hd x (by simp [hx])) (.inl hi)
      ⟨h.indent, h.cws, h.comment, h.trail⟩ hi p p.key (hd p (by simp))
    exact .chain k _ p _ _ rfl rfl rfl ht hk rfl rfl rfl this

/-- the table that is being read, its names, and the arrays of tables that are being read -/
inductive Par (A : HeadRel) : Option Key → List Str → List Key → Prop
  | top : Par A none [] []
  | under {full : Key} {P' : List (Str × Str)} {n' : Nat} {a' : Bool} {stack : List Key} (hk : HeadKey full P') (hd : Hd A n' a' P')
      (hs : ∀ a ∈ stack, ∃ Pa, HeadKey a Pa ∧ names Pa <+: names P') : Par A (some full) (names P') stack

theorem Par.stack {A : HeadRel} {parent : Option Key} {pp : List Str} {st : List Key} (h : Par A parent pp st) :
    ∀ a ∈ st, ∃ Pa, HeadKey a Pa ∧ names Pa <+: pp := by
  cases h with
  | top => simp
  | under _ _ hs => exact hs

/-- the names below the enclosing table -/
structure Below (A : HeadRel) (parent : Option Key) (pp : List Str) (P P0 r : List (Str × Str)) (parts : List SKey) (key : Key) (aot : Bool) : Prop where
  split : P = P0 ++ r
  names : names P0 = pp
  pairs : (parts.map fun p => (p.orig, p.key)) = r
  ne : parts ≠ []
  plain : ∀ p ∈ parts, p.dotted = false
  path : aot = true → key.asString = headerPath parent parts

theorem below_of {A : HeadRel} (hC : HeadsFit A) {parent : Option Key} {pp : List Str} {stack : List Key} (hpar : Par A parent pp stack) {n : Nat} {aot : Bool}
    {key : Key} {P : List (Str × Str)} (hk : HeadKey key P) (hH : Hd A n aot P)
    (hch : ∀ full, parent = some full → isChild full key = true) :
    ∃ P0 r, Below A parent pp P P0 r (key.parts.drop ((parent.map fun k => k.parts.length).getD 0)) key aot := by
  cases hpar with
  | top =>
    refine ⟨[], P, rfl, rfl, hk.pairs, ?_, hk.plain, fun _ => ?_⟩
    · show key.parts.drop 0 ≠ []
      intro h0
      have h0 : key.parts = [] := h0
      have := hk.length
      rw [h0] at this
      have := List.length_pos_iff.2 hk.ne
      simp_all
    · show _ = joinDot (key.parts.map SKey.orig)
      rw [hk.origs]; exact hk.text
  | @under full P' n' a' _ hk' hd' hs =>
    obtain ⟨c1, c2⟩ := isChild_names (hch full rfl)
    rw [hk'.names, hk.names] at c1
    rw [hk'.length, hk.length] at c2
    have hL : ((Option.map (fun k : Key => k.parts.length) (some full)).getD 0) = P'.length := hk'.length
    rw [hL]
    have hdrop : ((key.parts.drop P'.length).map fun p => (p.orig, p.key)) = P.drop P'.length := by
      rw [← hk.pairs]; simp [Tomlkit.pairs]
    have hne : key.parts.drop P'.length ≠ [] := by
      intro h0
      have := congrArg List.length h0
      rw [List.length_drop, hk.length] at this
      simp at this; omega
    refine ⟨P.take P'.length, P.drop P'.length, (List.take_append_drop _ _).symm, ?_, hdrop, hne, fun p hp => hk.plain p (List.mem_of_mem_drop hp), fun ha => ?_⟩
    · show (P.take P'.length).map Prod.snd = _
      rw [List.map_take]
      have := List.prefix_iff_eq_take.1 c1
      rw [this]
      simp [Tomlkit.names]
    · rw [ha] at hH
      have hpre := prefix_spelled hC hH hd' c1
      have htake : P.take P'.length = P' := (List.prefix_iff_eq_take.1 hpre).symm
      show key.asString = if (key.parts.drop P'.length).isEmpty then _ else full.asString ++ 46 :: joinDot ((key.parts.drop P'.length).map SKey.orig)
      rw [if_neg (by simpa using hne), hk.text, hk'.text]
      have ho : (key.parts.drop P'.length).map SKey.orig = (P.drop P'.length).map Prod.fst := by rw [← hdrop, List.map_map]; rfl
      rw [ho]
      conv => lhs; rw [← List.take_append_drop P'.length P, htake, List.map_append]
      refine joinDot_join _ _ (by simpa using hk'.ne) ?_
      rw [← ho]; simpa using hne

/-- How a text is read: `L` holds where a line begins, `H` where a header begins (or at the end), and `A` are the headers. -/
structure Course (T : Str) (A : HeadRel) (L H : St → Prop) : Prop extends HeadsFit A where
  item : ∀ st, Still T st → L st → parseItem.wp (fun r s => s.loss = [] ∧ (r ≠ none → L s) ∧ (r = none → H s)) (fun _ _ => True) st
  header : ∀ st, Still T st → H st → st.rest ≠ [] →
    parseHeader.wp (fun d s => Still T s ∧ L s ∧ d.indent = st.ext ∧ ∃ P, Told T A st d.isAot d.key P) (fun _ _ => True) st
  lineRest : ∀ s s' : St, s'.rest = s.rest → L s → L s'
  headRest : ∀ s s' : St, s'.rest = s.rest → s'.ext = s.ext → H s → H s'
  atEnd : ∀ s : St, s.rest = [] → H s
  lineHead : ∀ s : St, L s → s.ext = [] → s.cur = 91 → H s
  pos : ∀ s s' : St, H s → H s' → s'.rest.length < s.rest.length → s'.rest ≠ [] → headPos T s < headPos T s'

theorem loops_quiet {T : Str} {A : HeadRel} {L H : St → Prop} (hC : Course T A L H) : ∀ (n : Nat),
    (∀ (st : St) (parent : Option Key) (pp : List Str), Par A parent pp st.aot → Still T st → H st → st.rest ≠ [] →
      4 * st.rest.length + 1 ≤ n → (∀ full, parent = some full → ∃ b next, peekTable st = .ok (b, next) st ∧ isChild full next = true) →
      (parseTable n parent).wp (fun p s => Still T s ∧ H s ∧ ∃ aot P P0 r k, Hd A (headPos T st) aot P ∧ P = P0 ++ r ∧
        names P0 = pp ∧ p.1 = .single k ∧ Piece aot r k p.2) (fun _ _ => True) st) ∧
    (∀ (st : St) (name next : Key) (P' : List (Str × Str)) (n' : Nat), HeadKey name P' → Hd A n' true P' →
      (∀ a ∈ st.aot, ∃ Pa, HeadKey a Pa ∧ names Pa <+: names P') → st.aot.getLast? = some name → Still T st → H st → st.rest ≠ [] →
      4 * st.rest.length + 1 ≤ n → peekTable st = .ok (true, next) st → Key.eqv next name = true →
      (parseTable n (some name)).wp (fun _ s => Still T s ∧ H s) (fun _ _ => True) st) ∧
    (∀ (st : St) (full : Key) (pp : List Str) (tb : Tbl), Par A (some full) pp st.aot → Still T st → L st →
      4 * st.rest.length + 3 ≤ n → tb.Good PW → tb.cont.Clean → (∀ e ∈ tb.cont.body, LineEntry e) → (tableLoop n full tb).wp
      (fun tb' s => Still T s ∧ H s ∧ tb' = tb.setCont tb'.cont) (fun _ _ => True) st) ∧
    (∀ (st : St) (full : Key) (pp : List Str) (tb : Tbl) (m : Nat), Par A (some full) pp st.aot → Still T st → H st →
      4 * st.rest.length + 2 ≤ n → tb.Good PW → Hist A pp m tb.cont → (st.rest ≠ [] → m ≤ headPos T st) → (childLoop n full tb).wp
      (fun tb' s => Still T s ∧ H s ∧ tb' = tb.setCont tb'.cont) (fun _ _ => True) st) ∧
    (∀ (st : St) (first : Tbl) (name : Key) (P' : List (Str × Str)) (n' : Nat), HeadKey name P' → Hd A n' true P' →
      (∀ a ∈ st.aot, ∃ Pa, HeadKey a Pa ∧ names Pa <+: names P') → Still T st → H st →
      4 * st.rest.length + 3 ≤ n → first.Good PW → (parseAot n first name).wp
      (fun v s => Still T s ∧ H s ∧ ∃ ts, v = mkAoT ts none true) (fun _ _ => True) st) ∧
    (∀ (st : St) (name : Key) (ts : List Tbl) (P' : List (Str × Str)) (n' : Nat), HeadKey name P' → Hd A n' true P' →
      (∀ a ∈ st.aot, ∃ Pa, HeadKey a Pa ∧ names Pa <+: names P') → st.aot.getLast? = some name → Still T st → H st →
      4 * st.rest.length + 2 ≤ n → (aotLoop n name ts).wp (fun _ s => Still T s ∧ H s) (fun _ _ => True) st) := by
  intro n
  induction n with
  | zero =>
    exact ⟨fun _ _ _ _ _ _ _ _ _ => trivial, fun _ _ _ _ _ _ _ _ _ _ _ _ _ _ _ => trivial, fun _ _ _ _ _ _ _ _ _ _ _ => trivial,
      fun _ _ _ _ _ _ _ _ _ _ _ _ => trivial, fun _ _ _ _ _ _ _ _ _ _ _ _ => trivial, fun _ _ _ _ _ _ _ _ _ _ _ _ => trivial⟩
  | succ n ih =>
    obtain ⟨ihT, ihE, ihB, ihC, ihA, ihO⟩ := ih
    have hfind : ∀ (st : St) (hd : Header) (s : St) (P : List (Str × Str)) (pp : List Str) (nm : Str), Told T A st hd.isAot hd.key P →
        (∀ a ∈ st.aot, ∃ Pa, HeadKey a Pa ∧ names Pa <+: pp) → pp <+: names P → Adv st s 1 → 4 * st.rest.length + 1 ≤ n + 1 →
        Still T s → L s → (tableLoop n hd.key (hd.leaf nm)).wp (fun tb s' => Still T s' ∧ H s' ∧ tb = (hd.leaf nm).setCont tb.cont ∧
          Adv st s' 1 ∧ tb.Good PW) (fun _ _ => True) s := by
      intro st hd s P pp nm htold hst hpp hadv hn h hl
      have hlen := hadv.len
      refine wp_mono (wp_both (ihB s hd.key (names P) (hd.leaf nm) (.under htold.key htold.hd ?_) h hl (by omega) (leaf_good _ _)
        ⟨rfl, trivial⟩ (fun e he => by cases he)) ((table_does n).2.1 s hd.key (hd.leaf nm) (by omega) (leaf_good _ _))) ?_ fun _ _ _ => trivial
      · rw [hadv.aot]
        intro a ha
        obtain ⟨Pa, h1, h2⟩ := hst a ha
        exact ⟨Pa, h1, h2.trans hpp⟩
      · rintro tb s' ⟨⟨g1, g2, g3⟩, g4, g5, g6, g7⟩
        exact ⟨g1, g2, g3, ⟨g4.trans hadv.suf, by omega, g6.trans hadv.aot⟩, g7⟩
    refine ⟨?_, ?_, ?_, ?_, ?_, ?_⟩
    · intro st parent pp hpar h hh hne hn hch
      unfold parseTable
      refine wp_bind (wp_mono (wp_both (hC.header st h hh hne) (parseHeader_does st)) ?_ fun _ _ _ => trivial)
      rintro hd s ⟨⟨h, hl, hind, P, htold⟩, d1, d2, d3, d4, k0, hpk, hkey⟩
      have hadv : Adv st s 1 := ⟨d1, d2, d3⟩
      have hch' : ∀ full, parent = some full → isChild full hd.key = true := by
        intro full hf
        obtain ⟨b, next, h1, h2⟩ := hch full hf
        rw [hpk] at h1
        cases h1
        unfold isChild at h2 ⊢
        rw [hkey, setSep_namesOf]; exact h2
      obtain ⟨P0, r, hbelow⟩ := below_of hC.toHeadsFit hpar htold.key htold.hd hch'
      have hppP : pp <+: names P := by
        rw [hbelow.split, ← hbelow.names]
        exact ⟨names r, by simp [names]⟩
      dsimp only
      generalize hd.key.parts.drop ((parent.map fun k => k.parts.length).getD 0) = parts at hbelow ⊢
      refine wp_bind (h.note ?_ ?_)
      · cases ha : hd.isAot
        · rfl
        · rw [hbelow.path ha]; simp
      refine wp_bind (wp_mono (hfind st hd s P pp _ htold hpar.stack hppP hadv hn h hl) ?_ fun _ _ _ => trivial)
      rintro tb s1 ⟨h, hh, hsh, hadv, hgood⟩
      refine wp_bind (wp_lift (fun _ _ => wp_bind (wp_getSt ?_)) fun _ _ => trivial)
      have t1 : tb.superFlag = some false := by rw [hsh]; rfl
      have t2 : tb.isAot = hd.isAot := by rw [hsh]; rfl
      have t3 : tb.name.isSome = true := by rw [hsh]; rfl
      obtain ⟨hspl, hnm, hpairs, hpne, hplain, hpath⟩ := hbelow
      rcases parts with _ | ⟨k, _ | ⟨p, r'⟩⟩
      · exact absurd rfl hpne
      · dsimp only
        cases ha : hd.isAot
        · rw [if_neg (by simp)]
          refine ⟨h, hh, false, P, P0, r, k, by rw [← ha]; exact htold.hd, hspl, hnm, rfl, ?_⟩
          rw [← hpairs]
          exact .leaf k tb t1 (t2.trans ha) t3 rfl (hplain k (by simp))
        · rw [if_pos]
          · refine wp_bind (wp_mono (ihA s1 tb hd.key P _ htold.key (by rw [← ha]; exact htold.hd) ?_ h hh ?_ hgood) ?_ fun _ _ _ => trivial)
            · rw [hadv.aot]
              intro a ha
              obtain ⟨Pa, h1, h2⟩ := hpar.stack a ha
              exact ⟨Pa, h1, h2.trans hppP⟩
            · have := hadv.len
              omega
            · rintro v s2 ⟨h, hh, ts, rfl⟩
              refine ⟨h, hh, true, P, P0, r, k, by rw [← ha]; exact htold.hd, hspl, hnm, rfl, ?_⟩
              rw [← hpairs]
              exact .arr k _ _ _ _ rfl rfl (hplain k (by simp))
          · rcases ht : s1.aot.getLast? with _ | top
            · rfl
            · dsimp only
              rw [hadv.aot] at ht
              obtain ⟨Pa, h1, h2⟩ := hpar.stack top (List.mem_of_getLast? ht)
              cases he : Key.eqv hd.key top
              · rfl
              · exfalso
                have he := eqv_names he
                rw [htold.key.names, h1.names] at he
                rw [← he] at h2
                have := h2.length_le
                rw [hspl, ← hnm, ← hpairs] at this
                simp [names] at this
                omega
      · dsimp only
        have hflag : (hd.isAot && s1.aot.any fun a => Key.eqv (.single k) a) = false := by
          cases ha : hd.isAot
          · rfl
          · rw [Bool.true_and, hadv.aot]
            rw [List.any_eq_false]
            intro a hmem he
            obtain ⟨Pa, h1, h2⟩ := hpar.stack a hmem
            have he := eqv_names he
            rw [h1.names] at he
            have he : [k.key] = names Pa := he
            rw [← he, ← hnm] at h2
            rcases P0 with _ | ⟨x, P0⟩
            · simp [names] at h2
            · simp only [names, List.map_cons, List.cons_prefix_cons, List.nil_prefix, and_true] at h2
              obtain ⟨m, b, hmb⟩ : ∃ m b, (p :: r').map (fun p => (p.orig, p.key)) = m ++ [b] := by
                rcases List.eq_nil_or_concat ((p :: r').map fun p => (p.orig, p.key)) with h0 | ⟨m, b, h0⟩
                · simp at h0
                · exact ⟨m, b, by simpa using h0⟩
              refine htold.clear ha x (P0 ++ (k.orig, k.key) :: m) b ?_ (k.orig, k.key) (by simp) h2
              rw [hspl, ← hpairs, List.map_cons, hmb]; simp
        rw [hflag]
        refine ⟨h, hh, hd.isAot, P, P0, r, k, htold.hd, hspl, hnm, rfl, ?_⟩
        rw [← hpairs]
        refine header_piece hd tb t1 t2 t3 (p :: r') (by simp) (fun x hx => hplain x (by simp [hx])) ?_ _ rfl k k.key (hplain k (by simp))
        rcases htold.indent with hi | hi
        · exact .inl (hind.trans hi)
        · refine .inr ?_
          rw [hspl, ← hpairs] at hi
          simp only [List.length_append, List.length_map, List.length_cons] at hi ⊢; omega
    · intro st name next P' n' hk hH hstack hlast h hh hne hn hpeek heqv
      unfold parseTable
      refine wp_bind (wp_mono (wp_both (hC.header st h hh hne) (parseHeader_does st)) ?_ fun _ _ _ => trivial)
      rintro hd s ⟨⟨h, hl, hind, P, htold⟩, d1, d2, d3, d4, k0, hpk, hkey⟩
      have hadv : Adv st s 1 := ⟨d1, d2, d3⟩
      rw [hpeek] at hpk
      simp only [Res.ok.injEq, Prod.mk.injEq, and_true] at hpk
      obtain ⟨ha, rfl⟩ := hpk
      have hnames : names P = names P' := by
        have := eqv_names heqv
        rw [← setSep_namesOf next [], ← hkey, htold.key.names, hk.names] at this
        exact this
      have hPP : P' = P := by
        have := prefix_spelled hC.toHeadsFit (by have := htold.hd; rw [← ha] at this; exact this) hH (by rw [hnames]; exact List.prefix_refl _)
        refine this.eq_of_length ?_
        have := congrArg List.length hnames
        simpa [names] using this.symm
      subst hPP
      dsimp only
      have hparts : hd.key.parts.drop ((Option.map (fun k : Key => k.parts.length) (some name)).getD 0) = [] := by
        show hd.key.parts.drop name.parts.length = []
        rw [hk.length, ← htold.key.length]; simp
      rw [hparts]
      refine wp_bind (h.note ?_ ?_)
      · show (hd.isAot && hd.key.asString != name.asString) = false
        rw [htold.key.text, hk.text]; simp
      refine wp_bind (wp_mono (hfind st hd s P' (names P') _ htold hstack (List.prefix_refl _) hadv hn h hl) ?_ fun _ _ _ => trivial)
      rintro tb s1 ⟨h, hh, hsh, hadv, hgood⟩
      refine wp_bind (wp_lift (fun _ _ => wp_bind (wp_getSt ?_)) fun _ _ => trivial)
      dsimp only
      refine wp_ite (fun hcon => ?_) fun _ => ⟨h, hh⟩
      exfalso
      rw [hadv.aot, hlast, hkey] at hcon
      dsimp only at hcon
      rw [setSep_eqv, heqv] at hcon
      simp at hcon
    · intro st full pp tb hpar h hl hn hgood hcl hlines
      unfold tableLoop
      refine wp_bind (wp_getSt (wp_ite (fun he => ?_) fun _ => ?_))
      · exact ⟨h, hC.atEnd _ (by simpa [St.atEnd] using he), by cases tb; rfl⟩
      refine wp_bind (wp_mono (wp_both (h.add (hC.item st h hl) (parseItem_keeps st)) (parseItem_does st)) ?_ fun _ _ _ => trivial)
      rintro r s ⟨⟨h, ⟨h1, h2⟩, hi⟩, hres⟩
      have hlen := hres.adv.len
      rcases r with _ | ⟨k, v⟩
      · dsimp only
        refine wp_bind (wp_getSt (wp_ite (fun _ => ?_) fun _ => trivial))
        exact ihC s full pp tb 0 (by rw [hres.adv.aot]; exact hpar) h (h2 rfl) (by omega) hgood
          (.lines ((Cont.clean_iff _).1 hcl).1 hlines 0) fun _ => Nat.zero_le _
      · obtain ⟨hadv, _, hv⟩ := hres.some k v rfl
        have hlen := hadv.len
        dsimp only
        rcases hm : mergeWs tb.cont v with _ | c
        · dsimp only
          refine wp_bind (wp_lift (fun r hr => ?_) fun _ _ => trivial)
          obtain ⟨tb1, mv⟩ := r
          have hg1 := tblRawAppend_good closed_PW hgood hv hr
          obtain ⟨c, hc, rfl⟩ := rawAppend_inv hr
          obtain ⟨hc1, _⟩ := append_line hcl hi hc
          refine wp_bind (h.note (append_line_quiet hcl hi hc) ?_)
          refine wp_mono (ihB s full pp _ (by rw [hadv.aot]; exact hpar) h (h1 (by simp)) (by omega) hg1 (by rw [setCont_cont]; exact hc1)
            (by rw [setCont_cont]; exact append_line_entries hcl hi hc hlines)) ?_ fun _ _ h => h
          rintro tb' s' ⟨q1, q2, q3⟩
          refine ⟨q1, q2, ?_⟩
          rw [q3]; cases tb; rfl
        · dsimp only
          refine wp_mono (ihB s full pp _ (by rw [hadv.aot]; exact hpar) h (h1 (by simp)) (by omega)
            ((Tbl.setCont_good _ _).2 (mergeWs_good ((Tbl.good_iff _).1 hgood) hm)) (by rw [setCont_cont]; exact (mergeWs_text hcl hm).1)
            (by rw [setCont_cont]; exact mergeWs_entries hm hlines)) ?_ fun _ _ h => h
          rintro tb' s' ⟨q1, q2, q3⟩
          refine ⟨q1, q2, ?_⟩
          rw [q3]; cases tb; rfl
    · intro st full pp tb m hpar h hh hn hgood hhist hm
      unfold childLoop
      refine wp_bind (wp_getSt (wp_ite (fun _ => ⟨h, hh, (setCont_self tb).symm⟩) fun he => ?_))
      have hne : st.rest ≠ [] := by simpa [St.atEnd] using he
      refine wp_bind (wp_mono (peekTable_at st) ?_ fun _ _ _ => trivial)
      rintro ⟨b, next⟩ s ⟨hpk, rfl, _⟩
      dsimp only
      refine wp_ite (fun hc => ?_) fun _ => ⟨h, hh, (setCont_self tb).symm⟩
      refine wp_bind (wp_mono (wp_both (ihT s (some full) pp hpar h hh hne (by omega) (by rintro _ ⟨⟩; exact ⟨b, next, hpk, hc⟩))
        ((table_does n).1 s (some full) (by omega))) ?_ fun _ _ _ => trivial)
      rintro ⟨key, v⟩ s1 ⟨⟨h1, hh1, aot, P, P0, r, k, hH, hP, hnm, hk, hpc⟩, d1, d2, d3, hres⟩
      have hk : key = .single k := hk
      subst hk
      have hv : v.Good PW := hres.2.1
      dsimp only
      refine wp_bind (wp_lift (fun r hr => ?_) fun _ _ => trivial)
      obtain ⟨tb1, mv⟩ := r
      have hg1 := tblRawAppend_good closed_PW hgood hv hr
      obtain ⟨c, hc, rfl⟩ := rawAppend_inv hr
      have hc : Cont.append1 (fuelFor tb.cont v) false false tb.cont (some k) v = .ok (c, mv) := hc
      obtain ⟨g1, g2⟩ := hist_append hC.toHeadsFit hH hpc P0 hP hnm hhist ((Tbl.good_iff _).1 hgood) hv (hm hne) hc
      subst g1
      refine wp_bind (h1.note rfl ?_)
      dsimp only
      refine wp_mono (ihC s1 full pp _ _ (by rw [d3]; exact hpar) h1 hh1 (by omega) hg1 (by rw [setCont_cont]; exact g2)
        (fun hs1 => hC.pos _ _ hh hh1 (by omega) hs1)) ?_ fun _ _ h => h
      rintro tb' s' ⟨q1, q2, q3⟩
      refine ⟨q1, q2, ?_⟩
      rw [q3]; cases tb; rfl
    · intro st first name P' n' hk hH hstack h hh hn hgood
      unfold parseAot
      refine wp_bind ?_
      show P.wp _ _ _ ({ st with aot := st.aot ++ [name] } : St)
      refine wp_bind (wp_mono (ihO { st with aot := st.aot ++ [name] } name [first] P' n' hk hH ?_ (by simp) ⟨h.suf, h.loss⟩ (hC.headRest st _ rfl rfl hh) (by show 4 * st.rest.length + 2 ≤ n; omega)) ?_ fun _ _ _ => trivial)
      · intro a ha
        rcases List.mem_append.1 ha with ha | ha
        · exact hstack a ha
        · rw [List.mem_singleton] at ha; subst ha
          exact ⟨P', hk, List.prefix_refl _⟩
      · rintro ts s ⟨h1, h2⟩
        refine wp_bind (wp_modify (f := fun st => { st with aot := st.aot.dropLast }) ?_)
        exact ⟨⟨h1.suf, h1.loss⟩, hC.headRest s _ rfl rfl h2, ts, rfl⟩
    · intro st name ts P' n' hk hH hstack hlast h hh hn
      unfold aotLoop
      refine wp_bind (wp_getSt (wp_ite (fun _ => ⟨h, hh⟩) fun he => ?_))
      have hne : st.rest ≠ [] := by simpa [St.atEnd] using he
      refine wp_bind (wp_mono (peekTable_at st) ?_ fun _ _ _ => trivial)
      rintro ⟨b, next⟩ s ⟨hpk, rfl, _⟩
      dsimp only
      refine wp_ite (fun hc => ?_) fun _ => ⟨h, hh⟩
      simp only [Bool.and_eq_true] at hc
      obtain ⟨rfl, heq⟩ := hc
      refine wp_bind (wp_mono (wp_both (ihE s name next P' n' hk hH hstack hlast h hh hne (by omega) hpk heq)
        ((table_does n).1 s (some name) (by omega))) ?_ fun _ _ _ => trivial)
      rintro ⟨key, v⟩ s1 ⟨⟨h1, hh1⟩, d1, d2, d3, hres⟩
      obtain ⟨t, ht⟩ := hres.2.2 next name hpk hlast heq
      simp only at ht
      subst ht
      dsimp only
      exact ihO s1 name _ P' n' hk hH (by rw [d3]; exact hstack) (by rw [d3]; exact hlast) h1 hh1 (by omega)

theorem topItems_quiet {T : Str} {A : HeadRel} {L H : St → Prop} (hC : Course T A L H) : ∀ (n : Nat) (st : St) (c : Cont), Still T st → L st → st.ext = [] →
    c.Clean → (∀ e ∈ c.body, LineEntry e) → (topItems n c).wp (fun c' s => Still T s ∧ H s ∧ c'.parsed = true ∧ ∀ e ∈ c'.body, LineEntry e)
      (fun _ _ => True) st := by
  intro n
  induction n with
  | zero => intro st c _ _ _ _ _; exact trivial
  | succ n ih =>
    intro st c h hl he hcl hlines
    unfold topItems
    refine wp_bind (wp_getSt (wp_ite (fun hc => ?_) fun _ => ?_))
    · refine ⟨h, ?_, ((Cont.clean_iff c).1 hcl).1, hlines⟩
      by_cases hr : st.rest = []
      · exact hC.atEnd st hr
      · exact hC.lineHead st hl he (by simpa [St.atEnd, hr] using hc)
    refine wp_bind (wp_mono (h.add (hC.item st h hl) (parseItem_keeps st)) ?_ fun _ _ _ => trivial)
    rintro r s ⟨h, ⟨h1, h2⟩, hi⟩
    rcases r with _ | ⟨k, v⟩
    · exact ⟨h, h2 rfl, ((Cont.clean_iff c).1 hcl).1, hlines⟩
    · dsimp only
      rcases hm : (if (k.map Key.isMulti).getD false = true then none else mergeWs c v) with _ | c'
      · dsimp only
        refine wp_bind ?_
        unfold P.wp wrapErr
        rcases hr : Cont.append true c k v with e | ⟨c', mv⟩
        · cases e <;> exact trivial
        · refine wp_bind (h.note (append_line_quiet hcl hi hr) ?_)
          refine wp_bind (h.mark fun s1 h3 hr1 he1 => ?_)
          obtain ⟨hc1, _⟩ := append_line hcl hi hr
          refine ih s1 c' h3 ?_ he1 hc1 (append_line_entries hcl hi hr hlines)
          exact hC.lineRest _ _ hr1 (h1 (by simp))
      · dsimp only
        have hm : mergeWs c v = some c' := by
          split at hm
          · cases hm
          · exact hm
        refine wp_bind (h.mark fun s1 h3 hr1 he1 => ?_)
        refine ih s1 c' h3 ?_ he1 (mergeWs_text hcl hm).1 (mergeWs_entries hm hlines)
        exact hC.lineRest _ _ hr1 (h1 (by simp))

theorem topTables_quiet {T : Str} {A : HeadRel} {L H : St → Prop} (hC : Course T A L H) : ∀ (n : Nat) (st : St) (c : Cont) (m : Nat), Still T st → H st → c.Good PW →
    Hist A [] m c → (st.rest ≠ [] → m ≤ headPos T st) → 4 * st.rest.length + 2 ≤ n → st.aot = [] →
    (topTables n c).wp (fun _ s => s.loss = []) (fun _ _ => True) st := by
  intro n
  induction n with
  | zero => intro st c m _ _ _ _ _ _ _; exact trivial
  | succ n ih =>
    intro st c m h hh hgood hhist hm hn ha
    unfold topTables
    refine wp_bind (wp_getSt (wp_ite (fun _ => h.loss) fun he => ?_))
    have hne : st.rest ≠ [] := by simpa [St.atEnd] using he
    refine wp_bind (wp_mono (wp_both ((loops_quiet hC n).1 st none [] (by rw [ha]; exact .top) h hh hne (by omega) (by rintro _ ⟨⟩))
      ((table_does n).1 st none (by omega))) ?_ fun _ _ _ => trivial)
    rintro ⟨key, v⟩ s ⟨⟨h1, hh1, aot, P, P0, r, k, hH, hP, hnm, hk, hpc⟩, d1, d2, d3, hres⟩
    have hk : key = .single k := hk
    subst hk
    have hv : v.Good PW := hres.2.1
    dsimp only
    have hrest : Tomlkit.P.wp (do
        let r ← wrapErr (Cont.append true c (some (.single k)) v)
        note r.2 .reordered
        topTables n r.1) (fun _ s => s.loss = []) (fun _ _ => True) s := by
      refine wp_bind ?_
      unfold Tomlkit.P.wp wrapErr
      rcases hr : Cont.append true c (some (.single k)) v with e | ⟨c', mv⟩
      · cases e <;> exact trivial
      · have hg1 := append_good closed_PW hgood hv hr
        have hc : Cont.append1 (fuelFor c v) false true c (some k) v = .ok (c', mv) := hr
        obtain ⟨g1, g2⟩ := hist_append hC.toHeadsFit hH hpc P0 hP hnm hhist hgood hv (hm hne) hc
        subst g1
        refine wp_bind (h1.note rfl ?_)
        exact ih s c' _ h1 hh1 hg1 g2 (fun hs1 => hC.pos _ _ hh hh1 (by omega) hs1) (by omega) (d3.trans ha)
    cases hpc with
    | leaf k tb hs hna hn0 h0 hd =>
      dsimp only
      rw [hna, if_neg (by decide)]
      exact wp_bind (wp_pure hrest)
    | arr k ts t nm b hi h0 hd => exact wp_bind (wp_pure hrest)
    | chain k tb k2 v2 r hs hna =>
      dsimp only
      rw [hna, if_neg (by decide)]
      exact wp_bind (wp_pure hrest)

/-- nothing is lost in a text that is read in this way -/
theorem parse_course {s : Str} {A : HeadRel} {L H : St → Prop} (hC : Course s A L H) (hL : L (.init s)) {c : Cont} (h : parse s = .ok c) :
    parseLog s = .ok (c, []) := by
  have h0 : Still s (.init s) := ⟨List.suffix_refl _, rfl⟩
  have hq : (parseDoc s).wp (fun _ st => st.loss = []) (fun _ _ => True) (.init s) := by
    unfold parseDoc
    refine wp_bind (wp_mono (wp_both (topItems_quiet hC (docFuel s) (.init s) (.empty true) h0 hL rfl
      ⟨rfl, trivial⟩ (fun e he => by cases he)) (topItems_does (docFuel s) (.init s) (.empty true) (by show s.length < _; unfold docFuel; omega)
        (Cont.good_empty closed_PW))) ?_ fun _ _ _ => trivial)
    rintro c1 s1 ⟨⟨h1, h2, h3, h4⟩, d1, d2, d3, d4⟩
    have hlen : s1.rest.length ≤ s.length := by
      have : s1.rest.length + 0 ≤ s.length := d2
      omega
    refine wp_bind (wp_mono (topTables_quiet hC (docFuel s) s1 c1 0 h1 h2 d4 (.lines h3 h4 0) (fun _ => Nat.zero_le _)
      (by unfold docFuel; omega) d3) ?_ fun _ _ h => h)
    intro c2 s2 hl
    exact hl
  unfold parse at h
  unfold parseLog at *
  unfold P.wp at hq
  rcases hp : parseDoc s (.init s) with ⟨c', st⟩ | ⟨e, st⟩ <;> rw [hp] at h hq
  · dsimp only at h hq ⊢
    rw [hq]
    simp only [Except.map, Except.ok.injEq] at h
    rw [h]
  · cases h

theorem calm_course {T : Str} (hC : Calm T) : Course T (HeaderAt T) (AtLine T) (AtHead T) where
  spelling := hC.spelling
  grouped := hC.grouped
  item := parseItem_quiet hC.toCalmValues
  header := parseHeader_quiet hC
  lineRest s s' h hl := by unfold AtLine at *; rw [h]; exact hl
  headRest s s' h h' hl := by unfold AtHead at *; rw [cur_eq h, h, h']; exact hl
  atEnd s h := Or.inl h
  lineHead s hl he hc := by
    rcases hl with hl | ⟨pre, hp, hls⟩
    · exact Or.inl hl
    · exact Or.inr ⟨hc, by rw [he]; simp, pre, by rw [he]; exact hp, hls⟩
  pos s s' := pos_lt

/-- nothing is lost in an ordinary text -/
theorem parse_calm {s : Str} (hC : Calm s) {c : Cont} (h : parse s = .ok c) : parseLog s = .ok (c, []) :=
  parse_course (calm_course hC) (Or.inr ⟨[], rfl, Or.inl rfl⟩) h

end Tomlkit
