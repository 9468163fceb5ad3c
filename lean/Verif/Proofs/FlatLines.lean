import Verif.Proofs.DocReads
/-!
# Reading a document of lines, whatever is known of its values

Like `ReadDoc`, with a predicate on the value read instead of the Python value it holds.
-/
namespace Tomlkit
open _root_.Spec Tomlkit.Spec

/-- Followed by blanks and the end of a value, the text is read as a value of which `Q` is known, whatever its trivia are.
After a date the blanks are read too. If `q`, nothing is lost. -/
def ReadsTo (q : Prop) (txt : Str) (Q : Item → Prop) : Prop :=
  ∀ (n : Nat) (b tail e : Str) (a : List Key) (l : List Loss), 3 * txt.length + 3 ≤ n → Blank b → DateEnds tail →
    ∃ i st, parseValue n ⟨txt ++ (b ++ tail), e, a, l⟩ = .ok i st ∧ (∀ t, Q (i.setTrivia t)) ∧ i.isTableLike = false ∧
      i.isWhitespace = false ∧ st.aot = a ∧
      ((i.trivia.commentWs = [] ∧ st.rest = b ++ tail) ∨ (i.trivia.commentWs = b ∧ st.rest = tail)) ∧ (q → st.loss = l)

theorem ReadsAs.to {q : Prop} {txt : Str} {w : PyVal} (h : ReadsAs q txt w) : ReadsTo q txt (Means w) := by
  intro n b tail e a l hn hb ht
  obtain ⟨i, st, h1, h2, h3, h4, h5⟩ := h n b tail e a l (by omega) hb ht
  exact ⟨i, st, h1, fun t => means_setTrivia t h2, h3, (means_kind h2).1, h4, h5⟩

theorem ReadsTo.imp {q : Prop} {txt : Str} {Q R : Item → Prop} (h : ReadsTo q txt Q) (hi : ∀ i, Q i → R i) : ReadsTo q txt R := by
  intro n b tail e a l hn hb ht
  obtain ⟨i, st, h1, h2, h3⟩ := h n b tail e a l hn hb ht
  exact ⟨i, st, h1, fun t => hi _ (h2 t), h3⟩

theorem ReadsTo.head {q : Prop} {txt : Str} {Q : Item → Prop} (h : ReadsTo q txt Q) : ∃ c r, txt = c :: r ∧ ¬ NoStart c := by
  obtain ⟨i, st, h1, _⟩ := h (3 * txt.length + 2 + 1) [] [93] [] [] [] (by omega) Blank.nil (.inr ⟨93, [], rfl, rfl⟩)
  rcases txt with _ | ⟨c, r⟩
  · rw [List.nil_append, List.nil_append, parseValue_nostart _ _ _ _ _ (by unfold NoStart; omega)] at h1
    cases h1
  · refine ⟨c, r, rfl, fun hc => ?_⟩
    rw [List.cons_append, parseValue_nostart _ _ _ _ _ hc] at h1
    cases h1

theorem ReadsTo.noKvSep {q : Prop} {txt : Str} {Q : Item → Prop} (h : ReadsTo q txt Q) (t : Str) : ∀ c r, txt ++ t = c :: r → isKvSep c = false := by
  obtain ⟨d, r, rfl, hd⟩ := h.head
  intro c r' he
  cases he
  obtain ⟨h1, _, _, _, h5, _⟩ := notWs_of_no hd
  simp only [isWs, Bool.or_eq_false_iff] at h1
  simp only [isSpaces, Bool.or_eq_false_iff] at h1
  simp [isKvSep, h5, h1.1.1, h1.1.2]

/-- a name and what is known of its value -/
structure Known where
  key : Str
  fact : Item → Prop

/-- Lines: blank lines, comments, key/value pairs; then `tail`. -/
inductive FLines : Str → Str → List Known → List Str → Prop
  | stop {tail : Str} : FLines tail tail [] []
  | blank {s nl t tail : Str} {l : List Known} {cs : List Str} (hs : Spaces s) (hn : Eol nl t) (hne : s ++ nl ≠ [])
      (h : FLines t tail l cs) : FLines (s ++ (nl ++ t)) tail l cs
  | cmt {ind s nl t tail : Str} {l : List Known} {cs : List Str} (hi : Spaces ind) (hs : ∀ x ∈ s, isCommentChar x = true)
      (hn : Eol nl t) (h : FLines t tail l cs) : FLines (ind ++ (35 :: (s ++ (nl ++ t)))) tail l ((35 :: s) :: cs)
  | kv {ind K k sp txt b cm nl t tail : Str} {Q : Item → Prop} {l : List Known} {cs : List Str} (hi : Spaces ind) (hK : KeyReads K k)
      (hs : Spaces sp) (hr : ReadsTo False txt Q) (hb : Spaces b) (hc : Cmt cm) (hn : Eol nl t) (h : FLines t tail l cs)
      (hk : k ∉ l.map Known.key) :
      FLines (ind ++ (K ++ 61 :: (sp ++ (txt ++ (b ++ (cm ++ (nl ++ t))))))) tail (⟨k, Q⟩ :: l) ((if cm = [] then [] else [cm]) ++ cs)

/-- a key/value line -/
theorem item_fkv {ind K k sp txt b cm nl t : Str} {Q : Item → Prop} (hi : Spaces ind) (hK : KeyReads K k)
    (hs : Spaces sp) (hr : ReadsTo False txt Q) (hb : Spaces b) (hc : Cmt cm) (hn : Eol nl t) (e : Str) (a : List Key) (l : List Loss) :
    ∃ sk i e' l', parseItem ⟨ind ++ (K ++ 61 :: (sp ++ (txt ++ (b ++ (cm ++ (nl ++ t)))))), e, a, l⟩ =
        .ok (some (some (.single sk), i)) ⟨t, e', a, l'⟩ ∧
      sk.key = k ∧ sk.orig = K ∧ sk.dotted = false ∧ sk.sep = 61 :: sp ∧ Q i ∧ i.isTableLike = false ∧ i.isWhitespace = false ∧
      i.trivia.comment = cm := by
  obtain ⟨b1, b2, rfl, hb1, hb2, hb3⟩ := spaces_split hb
  have hend : DateEnds (b2 ++ (cm ++ (nl ++ t))) := by
    rcases hb3 with rfl | ⟨r, rfl⟩
    · rw [List.nil_append]; exact dateEnds_tail hc hn
    · exact .inr ⟨9, _, rfl, rfl⟩
  rw [List.append_assoc b1 b2]
  generalize hX : ind ++ (K ++ 61 :: (sp ++ (txt ++ (b1 ++ (b2 ++ (cm ++ (nl ++ t))))))) = X
  have hlen : txt.length + 1 ≤ X.length := by
    rw [← hX]
    simp only [List.length_append, List.length_cons]; omega
  obtain ⟨sk, k1, k2, k3, k4, k5⟩ := kv_head hK hi hs (hr.noKvSep (b1 ++ (b2 ++ (cm ++ (nl ++ t))))) (valueFuel X - 1) [] a l
  have hf : valueFuel X - 1 + 1 = valueFuel X := by unfold valueFuel; omega
  rw [hX, hf] at k5
  obtain ⟨i, st, g1, g2, g3, g3', g4, g5, _⟩ := hr (valueFuel X - 1) b1 (b2 ++ (cm ++ (nl ++ t))) (61 :: sp) a l (by unfold valueFuel; omega) hb1 hend
  have hval : ∃ i' e' l', parseKeyValue (valueFuel X) true ⟨X, [], a, l⟩ = .ok (.single sk, i') ⟨t, e', a, l'⟩ ∧ Q i' ∧
      i'.isTableLike = false ∧ i'.isWhitespace = false ∧ i'.trivia.comment = cm := by
    have fin : ∀ b' : Str, Spaces b' → st.rest = b' ++ (cm ++ (nl ++ t)) → ∃ i' e' l', parseKeyValue (valueFuel X) true ⟨X, [], a, l⟩ = .ok (.single sk, i') ⟨t, e', a, l'⟩ ∧ Q i' ∧
      i'.isTableLike = false ∧ i'.isWhitespace = false ∧ i'.trivia.comment = cm := by
      intro b' hb' hrest
      rw [k5 true, P.bind_def, g1]
      rcases st with ⟨r1, e1, a1, l1⟩
      simp only at hrest g4
      subst hrest g4
      obtain ⟨cws, tr, e', q1, _⟩ := trail_reads hb' hc hn e1 a1 l1
      simp only [if_true]
      rw [P.bind_def, q1]
      dsimp only
      rw [P.bind_def, note_ok]
      refine ⟨_, _, _, rfl, g2 _, by rw [isTableLike_setTrivia]; exact g3, ?_, by rw [setTrivia_trivia g3']⟩
      cases i <;> first | rfl | cases g3'
    rcases g5 with ⟨_, g5⟩ | ⟨_, g5⟩
    · refine fin (b1 ++ b2) hb ?_
      rw [g5, List.append_assoc]
    · exact fin b2 hb2 g5
  obtain ⟨i', e', l', q1, q2, q3, q3', q4⟩ := hval
  refine ⟨sk, i', e', l', ?_, k1, k2, k3, k4, q2, q3, q3', q4⟩
  obtain ⟨⟨c, r, hc0, hsp, _, _, h10, h35, h91⟩, _⟩ := hK
  have hd : X.dropWhile isSpTabCr = c :: (r ++ 61 :: (sp ++ (txt ++ (b1 ++ (b2 ++ (cm ++ (nl ++ t))))))) := by
    rw [← hX, hc0]
    exact dropWhile_append_stop (spaces_spTabCr hi) hsp _
  unfold parseItem
  simp only [mark_bind, getSt_bind, skip_bind, hd]
  rw [if_neg (by simpa [St.cur] using h10), if_neg (by simp [St.atEnd]), if_neg (by simpa [St.cur] using h35),
    if_neg (by simpa [St.cur] using h91)]
  have hbind : ∀ (r : Res (Key × Item)) (f : Key × Item → P (Option (Option Key × Item))) st x s, r = .ok x s →
      ((fun (_ : St) => r) >>= f : P _) st = f x s := by
    rintro r f st x s rfl
    rfl
  rw [hbind _ _ _ _ _ q1]
  rfl

/-! ## Filling a container -/

/-- what has been read into a container so far -/
structure FBody (c : Cont) (l : List Known) (cs : List Str) : Prop where
  parsed : c.parsed = true
  wf : c.WF
  dict : c.dict = l.map Known.key
  known : ∀ x ∈ l, ∃ i, c.item x.key = .ok (.inl i) ∧ x.fact i
  comments : c.comments = cs
  tabs : c.tableKeys = []
  plain : ∀ e ∈ c.body, e.v.isTableLike = false

theorem fbody_empty : FBody (Cont.empty true) [] [] :=
  ⟨rfl, Cont.WF_empty _, rfl, (by intro x hx; cases hx), rfl, rfl, (by intro x hx; cases hx)⟩

theorem FBody.absent {c : Cont} {l : List Known} {cs : List Str} (h : FBody c l cs) {k : Str} (hk : k ∉ l.map Known.key) :
    mapGet k c.map = none := by
  rw [← h.dict, h.wf.dictMem] at hk
  rcases hm : mapGet k c.map with _ | is
  · rfl
  · rw [hm] at hk; simp at hk

/-- more entries without a key -/
theorem FBody.more {c : Cont} {l : List Known} {cs : List Str} (h : FBody c l cs) {v : Item} (hv : v.isTableLike = false) :
    FBody (.mk (c.body ++ [.mk none v]) c.map c.dict c.parsed c.tableKeys) l
      (cs ++ if v.trivia.comment.isEmpty then [] else [v.trivia.comment]) := by
  have hr : c.rawAppend none v = .ok (.mk (c.body ++ [.mk none v]) c.map c.dict c.parsed c.tableKeys) := rfl
  refine ⟨h.parsed, h.wf.rawAppend (by intro k hk; cases hk) hr, h.dict, fun x hx => ?_, ?_, h.tabs, fun e he => by
    rcases List.mem_append.1 he with h0 | h0
    · exact h.plain e h0
    · rw [List.mem_singleton.1 h0]; exact hv⟩
  · obtain ⟨i, hi, hf⟩ := h.known x hx
    refine ⟨i, ?_, hf⟩
    rw [item_single] at hi ⊢
    obtain ⟨n, e, h1, h2, h3⟩ := hi
    exact ⟨n, e, h1, by rw [Cont.body_mk, List.getElem?_append_left (List.getElem?_eq_some_iff.1 h2).1]; exact h2, h3⟩
  · rw [comments_append, ← h.comments]; rfl

theorem FBody.pair {c : Cont} {l : List Known} {cs : List Str} (h : FBody c l cs) {k : SKey} {i : Item} {Q : Item → Prop}
    (hv : i.isTableLike = false) (hw : Q i) (hk : k.key ∉ l.map Known.key) (validate : Bool) :
    ∃ c', Cont.append validate c (some (.single k)) i = .ok (c', false) ∧ FBody c' (l ++ [⟨k.key, Q⟩])
      (cs ++ if i.trivia.comment.isEmpty then [] else [i.trivia.comment]) := by
  have ha := h.absent hk
  rw [append_new (prepare_plain hv) ha]
  unfold Cont.appendTail
  have hc : (!c.body.isEmpty && !c.parsed && (!i.isTableLike || k.dotted)) = false := by simp [h.parsed]
  dsimp only
  rw [hc]
  have hr := rawAppend_new_eq hv ha
  simp only [Bool.false_eq_true, if_false]
  rw [hr]
  refine ⟨_, rfl, h.parsed, h.wf.rawAppend (fun k' hk' => ?_) hr, ?_, fun x hx => ?_, ?_, h.tabs, fun e he => by
    rcases List.mem_append.1 he with h0 | h0
    · exact h.plain e h0
    · rw [List.mem_singleton.1 h0]; exact hv⟩
  · cases hk'
    rw [ha]; first | trivial | simp [hv]
  · rw [Cont.dict_mk, dictSet_new (WF.not_mem_dict h.wf ha), h.dict]; simp
  · rcases List.mem_append.1 hx with hx | hx
    · obtain ⟨j, hj, hf⟩ := h.known x hx
      refine ⟨j, ?_, hf⟩
      rw [item_single] at hj ⊢
      obtain ⟨n, e, h1, h2, h3⟩ := hj
      have hne : k.key ≠ x.key := by intro h0; rw [← h0, ha] at h1; cases h1
      exact ⟨n, e, by rw [Cont.map_mk, mapGet_mapSet, if_neg hne]; exact h1,
        by rw [Cont.body_mk, List.getElem?_append_left (List.getElem?_eq_some_iff.1 h2).1]; exact h2, h3⟩
    · rw [List.mem_singleton] at hx
      subst hx
      refine ⟨i, ?_, hw⟩
      rw [item_single]
      exact ⟨c.body.length, .mk (some k) i, by rw [Cont.map_mk, mapGet_mapSet, if_pos rfl], by simp, rfl⟩
  · rw [← h.comments, comments_append]; rfl

theorem FBody.position {c : Cont} {l : List Known} {cs : List Str} (h : FBody c l cs) {k : Str} (hk : k ∈ l.map Known.key) :
    ∃ n, mapGet k c.map = some [n] := by
  obtain ⟨x, hm, rfl⟩ := List.mem_map.1 hk
  obtain ⟨i, hi, _⟩ := h.known x hm
  obtain ⟨n, _, h1, _⟩ := item_single.1 hi
  exact ⟨n, h1⟩

/-- white space after white space -/
theorem FBody.merge {c c' : Cont} {l : List Known} {cs : List Str} (h : FBody c l cs) (hk : ∀ x ∈ l, ∀ i, x.fact i → i.isWhitespace = false)
    {v : Item} (hm : mergeWs c v = some c') : FBody c' l cs := by
  unfold mergeWs at hm
  split at hm
  · rename_i k s f s' f' hl
    cases hm
    have hb : c.body.dropLast ++ [Entry.mk k (.ws s f)] = c.body := by
      have hne : c.body ≠ [] := by intro h0; rw [h0] at hl; cases hl
      have := List.dropLast_concat_getLast hne
      rw [List.getLast?_eq_some_getLast hne, Option.some.injEq] at hl
      rwa [hl] at this
    refine ⟨h.parsed, ?_, h.dict, fun x hx => ?_, ?_, h.tabs, fun e he => by
      rcases List.mem_append.1 he with h0 | h0
      · exact h.plain e (List.dropLast_subset _ h0)
      · rw [List.mem_singleton.1 h0]; rfl⟩
    · refine h.wf.of_shape ?_ _ _
      conv => rhs; rw [← hb]
      simp [Entry.shape, Entry.name, Entry.v, Item.isTable]
    · obtain ⟨i, hi, hh⟩ := h.known x hx
      refine ⟨i, ?_, hh⟩
      rw [item_single] at hi ⊢
      obtain ⟨n, e, h1, h2, h3⟩ := hi
      refine ⟨n, e, h1, ?_, h3⟩
      rw [← hb] at h2
      rw [Cont.body_mk]
      rcases Nat.lt_or_ge n c.body.dropLast.length with hn | hn
      · rw [List.getElem?_append_left hn] at h2 ⊢; exact h2
      · rw [List.getElem?_append_right hn] at h2
        rcases hd : n - c.body.dropLast.length with _ | d
        · rw [hd] at h2
          simp only [List.getElem?_cons_zero, Option.some.injEq] at h2
          subst h2
          subst h3
          exact absurd (hk x hx _ hh) (by simp [Item.isWhitespace, Entry.v])
        · rw [hd] at h2; simp at h2
    · rw [← h.comments]
      unfold Cont.comments
      conv => rhs; rw [← hb]
      simp [Entry.v, Item.trivia]
  · cases hm

/-- nothing that is known is known of white space -/
def Solids (l : List Known) : Prop := ∀ x ∈ l, ∀ i, x.fact i → i.isWhitespace = false

theorem flines_read {α : Type} {E : Str → Prop} {L : Nat → Cont → St → Res α} (hL : Sink E L) {text tail : Str} {l : List Known} {cs : List Str}
    (h : FLines text tail l cs) : Solids l → ∀ (n : Nat) (c : Cont) (l0 : List Known) (cs0 : List Str) (e : Str) (a : List Key) (lg : List Loss),
      text.length ≤ n → E e → c.Good PW → FBody c l0 cs0 → Solids l0 → (∀ k ∈ l.map Known.key, k ∉ l0.map Known.key) →
      ∃ n' c' e' lg', L n c ⟨text, e, a, lg⟩ = L n' c' ⟨tail, e', a, lg'⟩ ∧ FBody c' (l0 ++ l) (cs0 ++ cs) ∧
        n + tail.length ≤ n' + text.length ∧ E e' ∧ c'.Good PW := by
  induction h with
  | stop =>
    intro _ n c l0 cs0 e a lg _ hE hg hc _ _
    exact ⟨n, c, e, lg, rfl, by simpa using hc, Nat.le_refl _, hE, hg⟩
  | @blank s nl t tail l cs hs hn hne h ih =>
    intro hsl n c l0 cs0 e a lg hlen hE hg hc hs0 hd
    obtain ⟨x, e1, h1⟩ := item_blank hs hn hne e a lg
    have hgi := parseItem_good h1
    have hpos : 0 < (s ++ nl).length := List.length_pos_iff.2 hne
    obtain ⟨m, rfl⟩ : ∃ m, n = m + 1 := ⟨n - 1, by simp at hlen hpos; omega⟩
    have hnil : s ++ (nl ++ t) ≠ [] := by
      rw [← List.append_assoc]; intro h0; exact hne (List.append_eq_nil_iff.1 h0).1
    have hcur : (St.mk (s ++ (nl ++ t)) e a lg).cur ≠ 91 := by
      intro h0
      cases s with
      | nil => cases hn <;> simp [St.cur] at h0 hne
      | cons y s =>
        have := hs y (by simp)
        simp only [St.cur, List.cons_append] at h0
        rw [h0] at this; cases this
    rcases hm : mergeWs c (.ws x false) with _ | c1
    · obtain ⟨e2, l2, q, hE2⟩ := hL m c _ _ _ none _ hnil hcur h1 (.inr ⟨hm, fun b => append_none_any rfl b, (fun _ _ h => by cases h)⟩)
      rw [q]
      have hmore := hc.more (v := .ws x false) rfl
      simp only [Item.trivia, List.isEmpty_nil, if_true, List.append_nil] at hmore
      obtain ⟨n', c', e', lg', r1, r2, r3, r4, r5⟩ := ih hsl m _ l0 cs0 e2 a l2 (by simp at hlen hpos ⊢; omega) hE2 (append_good closed_PW hg hgi (append_none_any rfl true))
        hmore hs0 hd
      exact ⟨n', c', e', lg', r1, r2, by simp at hpos r3 ⊢; omega, r4, r5⟩
    · obtain ⟨e2, l2, q, hE2⟩ := hL m c _ _ _ none _ hnil hcur h1 (.inl ⟨rfl, hm⟩)
      rw [q]
      obtain ⟨n', c', e', lg', r1, r2, r3, r4, r5⟩ := ih hsl m c1 l0 cs0 e2 a l2 (by simp at hlen hpos ⊢; omega) hE2 (mergeWs_good hg hm) (hc.merge hs0 hm) hs0 hd
      exact ⟨n', c', e', lg', r1, r2, by simp at hpos r3 ⊢; omega, r4, r5⟩
  | @cmt ind s nl t tail l cs hi hs hn h ih =>
    intro hsl n c l0 cs0 e a lg hlen hE hg hc hs0 hd
    obtain ⟨tv, e1, h1, h2, _⟩ := item_cmt hi hs hn e a lg
    have hgi := parseItem_good h1
    obtain ⟨m, rfl⟩ : ∃ m, n = m + 1 := ⟨n - 1, by simp at hlen; omega⟩
    have hcur : (St.mk (ind ++ (35 :: (s ++ (nl ++ t)))) e a lg).cur ≠ 91 := by
      intro h0
      cases ind with
      | nil => simp [St.cur] at h0
      | cons y s =>
        have := hi y (by simp)
        simp only [St.cur, List.cons_append] at h0
        rw [h0] at this; cases this
    obtain ⟨e2, l2, q, hE2⟩ := hL m c _ _ _ none _ (by simp) hcur h1 (.inr ⟨mergeWs_none rfl, fun b => append_none_any rfl b, (fun _ _ h => by cases h)⟩)
    rw [q]
    have hmore := hc.more (v := .comment tv) rfl
    simp only [Item.trivia, h2, List.isEmpty_cons, Bool.false_eq_true, if_false] at hmore
    obtain ⟨n', c', e', lg', r1, r2, r3, r4, r5⟩ := ih hsl m _ l0 (cs0 ++ [35 :: s]) e2 a l2 (by simp at hlen ⊢; omega) hE2 (append_good closed_PW hg hgi (append_none_any rfl true))
      hmore hs0 hd
    exact ⟨n', c', e', lg', r1, by simpa using r2, by simp at r3 ⊢; omega, r4, r5⟩
  | @kv ind K k sp txt b cm nl t tail Q l cs hi hK hs hr hb hc' hn h hk ih =>
    intro hsl n c l0 cs0 e a lg hlen hE hg hc hs0 hd
    obtain ⟨sk, i, e1, l1, h1, h2, _, _, _, h3, h4, h4', h5⟩ := item_fkv hi hK hs hr hb hc' hn e a lg
    have hgi := parseItem_good h1
    subst h2
    obtain ⟨m, rfl⟩ : ∃ m, n = m + 1 := ⟨n - 1, by simp at hlen; omega⟩
    obtain ⟨⟨x, K', hK', hx, _, _, _, _, hx91⟩, _⟩ := hK
    have hcur : (St.mk (ind ++ (K ++ 61 :: (sp ++ (txt ++ (b ++ (cm ++ (nl ++ t))))))) e a lg).cur ≠ 91 := by
      intro h0
      cases ind with
      | nil => rw [hK'] at h0; simp [St.cur] at h0; exact hx91 h0
      | cons y s =>
        have := hi y (by simp)
        simp only [St.cur, List.cons_append] at h0
        rw [h0] at this; cases this
    have hap := fun b => hc.pair (Q := Q) h4 h3 (hd sk.key (by simp)) b
    obtain ⟨c1, a1, a2⟩ := hap true
    have a1' : ∀ b, Cont.append b c (some (.single sk)) i = .ok (c1, false) := fun b => by
      cases b with
      | true => exact a1
      | false =>
        have hab := hc.absent (hd sk.key (by simp))
        rw [append_new (prepare_plain h4) hab, ← append_new (validate := true) (prepare_plain h4) hab]
        exact a1
    obtain ⟨e2, l2, q, hE2⟩ := hL m c _ _ _ (some (.single sk)) _ (by simp) hcur h1 (.inr ⟨mergeWs_none h4', a1', fun k1 r h' => by
      simp only [Option.map_some, Key.parts, Option.some.injEq, List.cons.injEq] at h'
      obtain ⟨h', _⟩ := h'
      subst h'
      obtain ⟨j, hj⟩ := a2.position (k := sk.key) (by simp)
      exact ⟨true, has_single hj⟩⟩)
    rw [q]
    have hcm : (if i.trivia.comment.isEmpty then [] else [i.trivia.comment]) = (if cm = [] then [] else [cm]) := by
      rw [h5]; cases cm <;> simp
    rw [hcm] at a2
    obtain ⟨n', c', e', lg', r1, r2, r3, r4, r5⟩ := ih (fun x hx => hsl x (List.mem_cons_of_mem _ hx)) m c1 (l0 ++ [⟨sk.key, Q⟩]) _ e2 a l2 (by simp at hlen ⊢; omega) hE2 (append_good closed_PW hg hgi a1)
      a2 (by
        intro x hx
        rcases List.mem_append.1 hx with h0 | h0
        · exact hs0 x h0
        · rw [List.mem_singleton] at h0; subst h0; exact hsl _ (by simp))
      (by
        intro x hx hx0
        rw [List.map_append, List.mem_append] at hx0
        rcases hx0 with h0 | h0
        · exact hd x (by simp [hx]) h0
        · simp only [List.map_cons, List.map_nil, List.mem_singleton] at h0
          subst h0; exact hk hx)
    exact ⟨n', c', e', lg', r1, by simpa using r2, by simp at r3 ⊢; omega, r4, r5⟩

/-- nothing is changed by `stopParsing` in a value that is no table -/
theorem stopParsing_plain {i : Item} (h : i.isTableLike = false) : i.stopParsing = i := by
  rcases i with _ | _ | _ | _ | _ | _ | _ | _ | _ | _ | _ | tb | ⟨ts, t, nm, p⟩ | _ <;>
    first | rfl | (simp [Item.isTableLike, Item.isTable, Item.isAoT] at h; done)

/-- A document of lines is read, and the values are as known. -/
theorem flat_reads {text : Str} {l : List Known} {cs : List Str} (h : FLines text [] l cs) (hs : Solids l)
    (ht : ∀ x ∈ l, ∀ i, x.fact i → i.isTableLike = false) :
    ∃ c, parse text = .ok c ∧ c.WF ∧ c.dict = l.map Known.key ∧ (∀ x ∈ l, ∃ i, c.item x.key = .ok (.inl i) ∧ x.fact i) ∧ c.comments = cs := by
  have hg0 : (Cont.empty true).Good PW := (Cont.good_iff _).2 ⟨closed_PW.empty, by intro e he; cases he⟩
  obtain ⟨n1, c1, e1, lg1, r1, r2, r3, r4, r5⟩ := flines_read sink_top h hs (docFuel text) (Cont.empty true) [] [] [] [] []
    (by unfold docFuel; omega) rfl hg0 fbody_empty (by intro x hx; cases hx) (by simp)
  rw [topItems_stops (.inl rfl) n1 (by unfold docFuel at r3; omega)] at r1
  simp only [List.nil_append] at r2
  have q1 : topTables (docFuel text) c1 ⟨[], e1, [], lg1⟩ = .ok c1 ⟨[], e1, [], lg1⟩ := by
    unfold docFuel
    rw [topTables, getSt_bind, if_pos (by rfl)]; rfl
  have hp : parseDoc text (.init text) = .ok c1.stopParsing ⟨[], e1, [], lg1⟩ := by
    unfold parseDoc
    refine (bind_step r1).trans ?_
    refine (bind_step q1).trans ?_
    rfl
  refine ⟨c1.stopParsing, ?_, ?_, ?_, fun x hx => ?_, ?_⟩
  · unfold parse parseLog
    rw [hp]; rfl
  · exact ((Cont.good_iff _).1 (Cont.stopParsing_good closed_WF (fun hc => hc) c1 (good_WF_of_PW r5))).1
  · rw [stopParsing_dict]; exact r2.dict
  · obtain ⟨i, hi, hf⟩ := r2.known x hx
    refine ⟨i, ?_, hf⟩
    have := Cont.stopParsing_item hi
    rwa [stopParsing_plain (ht x hx i hf)] at this
  · rw [← r2.comments]
    unfold Cont.comments
    rw [(stopParsing_fields c1).1, List.flatMap_map]
    congr 1
    funext e
    rcases e with ⟨k, v⟩
    have : v.stopParsing.trivia = v.trivia := by
      rcases v with _ | _ | _ | _ | _ | _ | _ | _ | _ | _ | _ | ⟨c, t, x, y, z, w⟩ | ⟨ts, t, nm, p⟩ | _ <;> rfl
    show (if v.stopParsing.trivia.comment.isEmpty then [] else [v.stopParsing.trivia.comment]) = _
    rw [this]; rfl

end Tomlkit
