import Verif.Proofs.ReadInline
import Verif.Spec.FlatEdit
import Verif.Proofs.KeepDoc
import Verif.Proofs.Tables
/-!
# Reading the lines of a document or of a table
-/
namespace Tomlkit
open _root_.Spec Tomlkit.Spec

/-- the end of a line, and what follows it -/
inductive Eol : Str → Str → Prop
  | lf (t : Str) : Eol [10] t
  | crlf (t : Str) : Eol [13, 10] t
  | eof : Eol [] []

/-- a comment or nothing -/
def Cmt (cm : Str) : Prop := cm = [] ∨ ∃ s, cm = 35 :: s ∧ ∀ x ∈ s, isCommentChar x = true

theorem cmt_nil : Cmt [] := .inl rfl
theorem cmt_some {s : Str} (h : ∀ x ∈ s, isCommentChar x = true) : Cmt (35 :: s) := .inr ⟨s, rfl, h⟩

/-- Lines: blank lines, comments, key/value pairs; then `tail`, which is empty or starts with a bracket. The list has the paths
and values of the pairs. -/
inductive Lines : Str → Str → List (List Str × PyVal) → Prop
  | stop {tail : Str} (h : tail = [] ∨ ∃ r, tail = 91 :: r) : Lines tail tail []
  | ind {b tail : Str} (hb : Spaces b) (h : ∃ r, tail = 91 :: r) : Lines (b ++ tail) tail []
  | blank {s nl t tail : Str} {L : List (List Str × PyVal)} (hs : Spaces s) (hn : Eol nl t) (hne : s ++ nl ≠ [])
      (h : Lines t tail L) : Lines (s ++ (nl ++ t)) tail L
  | cmt {ind s nl t tail : Str} {L : List (List Str × PyVal)} (hi : Spaces ind) (hs : ∀ x ∈ s, isCommentChar x = true)
      (hn : Eol nl t) (h : Lines t tail L) : Lines (ind ++ (35 :: (s ++ (nl ++ t)))) tail L
  | kv {ind K sp txt b cm nl t tail : Str} {p : List Str} {w : PyVal} {L : List (List Str × PyVal)} (hi : Spaces ind) (hK : PathReads K p)
      (hs : Spaces sp) (hr : ReadsAs False txt w) (hb : Spaces b) (hc : Cmt cm) (hn : Eol nl t) (h : Lines t tail L) :
      Lines (ind ++ (K ++ 61 :: (sp ++ (txt ++ (b ++ (cm ++ (nl ++ t))))))) tail ((p, w) :: L)

theorem Eol.step {nl t : Str} (h : Eol nl t) (e : Str) (a : List Key) (l : List Loss) :
    ∃ tr, parseTrail ⟨nl ++ t, e, a, l⟩ = .ok tr ⟨t, tr, a, l⟩ := by
  cases h with
  | lf =>
    have h1 : isSpaces 10 = false := rfl
    exact ⟨e ++ [10], by unfold parseTrail; simp [h1, P.bind_def, extract, step]⟩
  | crlf =>
    have h1 : isSpaces 13 = false := rfl
    exact ⟨e ++ [13, 10], by unfold parseTrail; simp [h1, P.bind_def, extract, step]⟩
  | eof => exact ⟨e, by unfold parseTrail; simp [P.bind_def, extract]⟩

theorem spaces_spTabCr {b : Str} (h : Spaces b) : ∀ c ∈ b, isSpTabCr c = true := fun c hc => by
  have := h c hc
  simp only [isSpaces, Bool.or_eq_true, beq_iff_eq] at this
  rcases this with h | h <;> simp [isSpTabCr, h]

/-- the end of a key/value line -/
theorem trail_reads {b cm nl t : Str} (hb : Spaces b) (hc : Cmt cm) (hn : Eol nl t) (e : Str) (a : List Key) (l : List Loss) :
    ∃ cws tr e', parseCommentTrail true ⟨b ++ (cm ++ (nl ++ t)), e, a, l⟩ = .ok (cws, cm, tr) ⟨t, e', a, l⟩ ∧ (cm = [] → cws = []) ∧
      (cm ≠ [] → cws = b) := by
  rcases hc with rfl | ⟨s, rfl, hs⟩
  · rw [List.nil_append]
    by_cases hemp : b ++ (nl ++ t) = []
    · refine ⟨[], [], e, ?_, fun _ => rfl, (fun h => absurd rfl h)⟩
      obtain ⟨rfl, h2⟩ := List.append_eq_nil_iff.1 hemp
      obtain ⟨rfl, rfl⟩ := List.append_eq_nil_iff.1 h2
      rfl
    · have hd : ∃ q nl', (b ++ (nl ++ t)).takeWhile isSpTabCr = q ∧ (b ++ (nl ++ t)).dropWhile isSpTabCr = nl' ++ t ∧ Eol nl' t ∧
          (nl' ++ t = [] ∨ ∃ r, nl' ++ t = 10 :: r) := by
        cases hn with
        | lf =>
          have h10 : isSpTabCr 10 = false := rfl
          exact ⟨_, [10], rfl, dropWhile_append_stop (spaces_spTabCr hb) h10 t, .lf t, .inr ⟨t, rfl⟩⟩
        | crlf =>
          have h10 : isSpTabCr 10 = false := rfl
          have hb' : ∀ c ∈ b ++ [13], isSpTabCr c = true := fun c hc => by
            rcases List.mem_append.1 hc with h | h
            · exact spaces_spTabCr hb c h
            · rw [List.mem_singleton] at h; subst h; rfl
          have := dropWhile_append_stop hb' h10 t
          exact ⟨_, [10], rfl, by simpa using this, .lf t, .inr ⟨t, rfl⟩⟩
        | eof =>
          refine ⟨_, [], rfl, ?_, .eof, .inl rfl⟩
          have h2 := spaces_spTabCr hb
          simp only [List.append_nil]
          clear hemp hb
          induction b with
          | nil => rfl
          | cons c b ih => rw [List.dropWhile_cons, h2 c (by simp), if_pos rfl]; exact ih fun x hx => h2 x (by simp [hx])
      obtain ⟨q, nl', d1, d2, d3, d4⟩ := hd
      obtain ⟨tr, ht⟩ := d3.step q a l
      refine ⟨[], tr, tr, ?_, fun _ => rfl, (fun h => absurd rfl h)⟩
      unfold parseCommentTrail
      have hae : (St.mk (b ++ (nl ++ t)) e a l).atEnd = false := by
        unfold St.atEnd
        cases hx : b ++ (nl ++ t) with
        | nil => exact absurd hx hemp
        | cons => rfl
      simp only [getSt_bind, hae, Bool.false_eq_true, if_false, mark_bind, skip_bind, d1, d2, List.nil_append]
      have hcond : ((St.mk (nl' ++ t) q a l).atEnd || decide ((St.mk (nl' ++ t) q a l).cur = 10)) = true := by
        rcases d4 with h | ⟨r, h⟩ <;> rw [h] <;> rfl
      rw [if_pos hcond, if_pos trivial, P.bind_def, ht]
      rfl
  · have h35 : isSpTabCr 35 = false := rfl
    have d1 := takeWhile_append_stop (spaces_spTabCr hb) h35 (s ++ (nl ++ t))
    have d2 := dropWhile_append_stop (spaces_spTabCr hb) h35 (s ++ (nl ++ t))
    have hst : (s ++ (nl ++ t)).takeWhile isCommentChar = s ∧ (s ++ (nl ++ t)).dropWhile isCommentChar = nl ++ t := by
      cases hn with
      | lf => exact ⟨takeWhile_append_stop hs rfl t, dropWhile_append_stop hs rfl t⟩
      | crlf => exact ⟨takeWhile_append_stop hs rfl (10 :: t), dropWhile_append_stop hs rfl (10 :: t)⟩
      | eof =>
        simp only [List.append_nil]
        refine ⟨takeWhile_all' hs, ?_⟩
        clear d1 d2
        induction s with
        | nil => rfl
        | cons c s ih => rw [List.dropWhile_cons, hs c (by simp), if_pos rfl]; exact ih fun x hx => hs x (by simp [hx])
    obtain ⟨tr, ht⟩ := hn.step [] a l
    refine ⟨b, tr, tr, ?_, (fun h => by cases h), fun _ => rfl⟩
    unfold parseCommentTrail
    rw [List.cons_append]
    have hae : (St.mk (b ++ 35 :: (s ++ (nl ++ t))) e a l).atEnd = false := by
      unfold St.atEnd; simp
    simp only [getSt_bind, hae, Bool.false_eq_true, if_false, mark_bind, skip_bind, d1, d2, List.nil_append]
    rw [if_neg (by simp [St.atEnd, St.cur]), if_pos (show (St.mk (35 :: (s ++ (nl ++ t))) b a l).cur = 35 from rfl)]
    simp only [extract_bind, mark_bind, step_bind_cons, skip_bind, getSt_bind, hst.1, hst.2, List.nil_append]
    have hcond : ¬ ((!(St.mk (nl ++ t) ([35] ++ s) a l).atEnd && !isNl (St.mk (nl ++ t) ([35] ++ s) a l).cur) = true) := by
      cases hn <;> simp [St.atEnd, St.cur, isNl]
    rw [if_neg hcond]
    simp only [extract_bind, mark_bind]
    rw [if_pos trivial, P.bind_def, ht]
    rfl

theorem comments_append (b : List Entry) (e : Entry) (m d p tk) :
    (Cont.mk (b ++ [e]) m d p tk).comments = (Cont.mk b m d p tk).comments ++
      (if e.v.trivia.comment.isEmpty then [] else [e.v.trivia.comment]) := by
  simp [Cont.comments]

/-- a blank line -/
theorem item_blank {s nl t : Str} (hs : Spaces s) (hn : Eol nl t) (hne : s ++ nl ≠ []) (e : Str) (a : List Key) (l : List Loss) :
    ∃ x e', parseItem ⟨s ++ (nl ++ t), e, a, l⟩ = .ok (some (none, .ws x false)) ⟨t, e', a, l⟩ := by
  have h10 : isSpTabCr 10 = false := rfl
  unfold parseItem
  simp only [mark_bind, getSt_bind, skip_bind, List.nil_append]
  have fin : ∀ q : Str, (∀ c ∈ q, isSpTabCr c = true) → q ++ 10 :: t = s ++ (nl ++ t) → ∃ x e', (do
      let st ← getSt
      if st.cur = 10 then
        step
        let s ← extract
        return some (none, .ws s false)
      else if st.atEnd && !st.ext.isEmpty then return some (none, .ws st.ext false)
      else if st.cur = 35 then
        let indent ← extract
        let (cws, comment, trail) ← parseCommentTrail true
        return some (none, .comment ⟨indent, cws, comment, trail⟩)
      else if st.cur = 91 then return none
      else
        let (k, v) ← (fun (_ : St) => parseKeyValue (valueFuel (s ++ (nl ++ t))) true ⟨s ++ (nl ++ t), [], a, l⟩)
        return some (some k, v) : P (Option (Option Key × Item)))
      ⟨(s ++ (nl ++ t)).dropWhile isSpTabCr, (s ++ (nl ++ t)).takeWhile isSpTabCr, a, l⟩ = .ok (some (none, .ws x false)) ⟨t, e', a, l⟩ := by
    intro q hq he
    rw [← he, takeWhile_append_stop hq h10, dropWhile_append_stop hq h10, getSt_bind, if_pos (show (St.mk (10 :: t) q a l).cur = 10 from rfl)]
    exact ⟨q ++ [10], q ++ [10], rfl⟩
  cases hn with
  | lf => exact fin s (spaces_spTabCr hs) rfl
  | crlf =>
    refine fin (s ++ [13]) (fun c hc => ?_) (by simp)
    rcases List.mem_append.1 hc with h | h
    · exact spaces_spTabCr hs c h
    · rw [List.mem_singleton] at h; subst h; rfl
  | eof =>
    simp only [List.append_nil] at hne ⊢
    have h1 : s.takeWhile isSpTabCr = s := takeWhile_all' (spaces_spTabCr hs)
    have h2 : s.dropWhile isSpTabCr = [] := by
      have := List.takeWhile_append_dropWhile (p := isSpTabCr) (l := s)
      rw [h1] at this
      simpa using this
    rw [h1, h2, if_neg (by simp [St.cur]), if_pos]
    · exact ⟨s, s, rfl⟩
    · cases s with
      | nil => exact absurd rfl hne
      | cons => rfl

/-- a comment line -/
theorem item_cmt {ind s nl t : Str} (hi : Spaces ind) (hs : ∀ x ∈ s, isCommentChar x = true) (hn : Eol nl t) (e : Str) (a : List Key) (l : List Loss) :
    ∃ tv e', parseItem ⟨ind ++ (35 :: (s ++ (nl ++ t))), e, a, l⟩ = .ok (some (none, .comment tv)) ⟨t, e', a, l⟩ ∧ tv.comment = 35 :: s ∧
      tv.indent = ind := by
  have h35 : isSpTabCr 35 = false := rfl
  obtain ⟨cws, tr, e', h1, _⟩ := trail_reads (b := []) Spaces.nil (cmt_some hs) hn ind a l
  refine ⟨⟨ind, cws, 35 :: s, tr⟩, e', ?_, rfl, rfl⟩
  unfold parseItem
  simp only [mark_bind, getSt_bind, skip_bind, List.nil_append, takeWhile_append_stop (spaces_spTabCr hi) h35,
    dropWhile_append_stop (spaces_spTabCr hi) h35]
  rw [if_neg (by simp [St.cur]), if_neg (by simp [St.atEnd]), if_pos (show (St.mk (35 :: (s ++ (nl ++ t))) ind a l).cur = 35 from rfl), extract_bind]
  have : ((35 : Nat) :: (s ++ (nl ++ t))) = [] ++ (35 :: s ++ (nl ++ t)) := rfl
  rw [this, P.bind_def, h1]
  rfl

/-- blanks, then nothing or a tab -/
theorem spaces_split {b : Str} (h : Spaces b) : ∃ b1 b2, b = b1 ++ b2 ∧ Blank b1 ∧ Spaces b2 ∧ (b2 = [] ∨ ∃ r, b2 = 9 :: r) := by
  induction b with
  | nil => exact ⟨[], [], rfl, Blank.nil, Spaces.nil, .inl rfl⟩
  | cons c b ih =>
    have hb : Spaces b := fun x hx => h x (by simp [hx])
    have hc := h c (by simp)
    simp only [isSpaces, Bool.or_eq_true, beq_iff_eq] at hc
    rcases hc with rfl | rfl
    · obtain ⟨b1, b2, rfl, h1, h2, h3⟩ := ih hb
      refine ⟨32 :: b1, b2, rfl, fun x hx => ?_, h2, h3⟩
      rcases List.mem_cons.1 hx with h | h
      · exact h
      · exact h1 x h
    · exact ⟨[], 9 :: b, rfl, Blank.nil, h, .inr ⟨b, rfl⟩⟩

theorem dateEnds_tail {cm nl t : Str} (hc : Cmt cm) (hn : Eol nl t) : DateEnds (cm ++ (nl ++ t)) := by
  rcases hc with rfl | ⟨s, rfl, _⟩
  · cases hn with
    | lf => exact .inr ⟨10, t, rfl, rfl⟩
    | crlf => exact .inr ⟨13, 10 :: t, rfl, rfl⟩
    | eof => exact .inl rfl
  · exact .inr ⟨35, _, rfl, rfl⟩

/-- a key/value line -/
theorem item_kv {ind K sp txt b cm nl t : Str} {p : List Str} {w : PyVal} (hi : Spaces ind) (hK : PathReads K p)
    (hs : Spaces sp) (hr : ReadsAs False txt w) (hb : Spaces b) (hc : Cmt cm) (hn : Eol nl t) (e : Str) (a : List Key) (l : List Loss) :
    ∃ key i e' l', parseItem ⟨ind ++ (K ++ 61 :: (sp ++ (txt ++ (b ++ (cm ++ (nl ++ t)))))), e, a, l⟩ =
        .ok (some (some key, i)) ⟨t, e', a, l'⟩ ∧ key.parts.map SKey.key = p ∧ Means w i ∧ i.isTableLike = false := by
  obtain ⟨b1, b2, rfl, hb1, hb2, hb3⟩ := spaces_split hb
  have hend : DateEnds (b2 ++ (cm ++ (nl ++ t))) := by
    rcases hb3 with rfl | ⟨r, rfl⟩
    · rw [List.nil_append]; exact dateEnds_tail hc hn
    · exact .inr ⟨9, _, rfl, rfl⟩
  rw [List.append_assoc b1 b2]
  generalize hX : ind ++ (K ++ 61 :: (sp ++ (txt ++ (b1 ++ (b2 ++ (cm ++ (nl ++ t))))))) = X
  have hlen : txt.length + 1 ≤ X.length := by
    rw [← hX]
    simp only [List.length_append, List.length_cons]; omega
  obtain ⟨key, k1, k5⟩ := kv_headD hK hi hs (reads_noKvSep hr (b1 ++ (b2 ++ (cm ++ (nl ++ t))))) (valueFuel X - 1) [] a l
  have hf : valueFuel X - 1 + 1 = valueFuel X := by unfold valueFuel; omega
  rw [hX, hf] at k5
  obtain ⟨i, st, g1, g2, g3, g4, g5⟩ := hr (valueFuel X - 1) b1 (b2 ++ (cm ++ (nl ++ t))) (61 :: sp) a l (by unfold valueFuel; omega) hb1 hend
  have hnote : ∀ (bb : Bool) (y : Loss) st, note bb y st = .ok () { st with loss := st.loss ++ (if bb then [y] else []) } := by
    intro bb y st; cases bb <;> simp [note]
  have hval : ∃ i' e' l', parseKeyValue (valueFuel X) true ⟨X, [], a, l⟩ = .ok (key, i') ⟨t, e', a, l'⟩ ∧ Means w i' ∧
      i'.isTableLike = false := by
    have fin : ∀ b' : Str, Spaces b' → st.rest = b' ++ (cm ++ (nl ++ t)) → ∃ i' e' l', parseKeyValue (valueFuel X) true ⟨X, [], a, l⟩ = .ok (key, i') ⟨t, e', a, l'⟩ ∧ Means w i' ∧
      i'.isTableLike = false := by
      intro b' hb' hrest
      rw [k5 true, P.bind_def, g1]
      rcases st with ⟨r1, e1, a1, l1⟩
      simp only at hrest g4
      subst hrest g4
      obtain ⟨cws, tr, e', q1, _⟩ := trail_reads hb' hc hn e1 a1 l1
      simp only [if_true]
      rw [P.bind_def, q1]
      dsimp only
      rw [P.bind_def, hnote]
      exact ⟨_, _, _, rfl, means_setTrivia _ g2, by rw [isTableLike_setTrivia]; exact g3⟩
    rcases g5 with ⟨_, g5⟩ | ⟨_, g5⟩
    · refine fin (b1 ++ b2) hb ?_
      rw [g5, List.append_assoc]
    · exact fin b2 hb2 g5
  obtain ⟨i', e', l', q1, q2, q3⟩ := hval
  refine ⟨key, i', e', l', ?_, k1, q2, q3⟩
  obtain ⟨_, ⟨c, r, hc0, hsp, _, _, h10, h35, h91⟩, _⟩ := hK
  have hd : X.dropWhile isSpTabCr = c :: (r ++ 61 :: (sp ++ (txt ++ (b1 ++ (b2 ++ (cm ++ (nl ++ t))))))) := by
    rw [← hX, hc0]
    exact dropWhile_append_stop (spaces_spTabCr hi) hsp _
  unfold parseItem
  simp only [mark_bind, getSt_bind, skip_bind, hd]
  rw [if_neg (by simpa [St.cur] using h10), if_neg (by simp [St.atEnd]), if_neg (by simpa [St.cur] using h35),
    if_neg (by simpa [St.cur] using h91)]
  have hbind : ∀ (r : Res (Key × Item)) (f : Key × Item → P (Option (Option Key × Item))) st x s, r = .ok x s →
      ((fun (_ : St) => r) >>= f : P _) st = f x s := by
    rintro r f st x s rfl
    rfl
  rw [hbind _ _ _ _ _ q1]
  rfl

/-! ## Filling a container -/

theorem append_none_any {c : Cont} {v : Item} (hv : v.isTableLike = false) (validate : Bool) : Cont.append validate c none v =
    .ok (.mk (c.body ++ [.mk none v]) c.map c.dict c.parsed c.tableKeys, false) := by
  rw [← append_none_plain hv]
  unfold Cont.append fuelFor
  dsimp only
  conv => lhs; rw [Cont.append1]
  conv => rhs; rw [Cont.append1]

/-- every value is one entry -/
theorem holdsIn_get {c : Cont} : ∀ {l : List PyPair}, HoldsIn l c → ∀ {k : Str} {w : PyVal}, .mk k w ∈ l →
    ∃ i, c.item k = .ok (.inl i) ∧ Holds w i
  | [], _, _, _, hm => by cases hm
  | .mk k' w' :: r, h, k, w, hm => by
    unfold HoldsIn HoldsPair at h
    rcases List.mem_cons.1 hm with h0 | h0
    · cases h0; exact h.1
    · exact holdsIn_get h.2 h0

theorem holdsIn_of {c : Cont} : ∀ {l : List PyPair}, (∀ k w, .mk k w ∈ l → ∃ i, c.item k = .ok (.inl i) ∧ Holds w i) → HoldsIn l c
  | [], _ => by unfold HoldsIn; trivial
  | .mk k w :: r, h => by
    unfold HoldsIn HoldsPair
    exact ⟨h k w (List.mem_cons_self ..), holdsIn_of fun k' w' hm => h k' w' (List.mem_cons_of_mem _ hm)⟩

theorem DotEnts.relast {k : Option SKey} {s s' : Str} {f f' : Bool} : ∀ {b : List Entry} {L : List (List Str × PyVal)},
    DotEnts Means L (b ++ [.mk k (.ws s f)]) → k = none ∧ DotEnts Means L (b ++ [.mk k (.ws s' f')])
  | [], L, h => by
    rw [List.nil_append] at h
    cases h with
    | skip hi h => exact ⟨rfl, .skip rfl h⟩
    | cons he h =>
      exfalso
      rcases he.inv with ⟨k, i, _, h1, h2, _⟩ | ⟨k, a, i, tb, r, _, h1, _⟩
      · cases h1; exact absurd (means_kind h2).1 (by simp [Item.isWhitespace])
      · cases h1
  | e :: b, L, h => by
    rw [List.cons_append] at h
    cases h with
    | skip hi h => exact (DotEnts.relast h).imp id (.skip hi)
    | cons he h => exact (DotEnts.relast h).imp id (.cons he)

/-- white space after white space -/
theorem DotBody.merge {c c' : Cont} {L : List (List Str × PyVal)} (h : DotBody Means c L) {v : Item} (hm : mergeWs c v = some c') :
    DotBody Means c' L := by
  unfold mergeWs at hm
  split at hm
  · rename_i k s f s' f' hl
    cases hm
    have hb : c.body.dropLast ++ [Entry.mk k (.ws s f)] = c.body := by
      have hne : c.body ≠ [] := by intro h0; rw [h0] at hl; cases hl
      have := List.dropLast_concat_getLast hne
      rw [List.getLast?_eq_some_getLast hne, Option.some.injEq] at hl
      rwa [hl] at this
    have he := h.ents
    rw [← hb] at he
    obtain ⟨rfl, he⟩ := DotEnts.relast (s' := s ++ s') (f' := false) he
    refine ⟨⟨fun k' => ?_, ?_, he⟩, h.parsed⟩
    · rw [Cont.map_mk, Cont.body_mk, h.index k']
      conv => lhs; rw [← hb]
      rw [spots_append, spots_append]
      rfl
    · rw [Cont.dict_mk, Cont.body_mk, h.dict]
      conv => lhs; rw [← hb]
      unfold dictOfBody
      rw [List.foldl_append, List.foldl_append]
      rfl
  · cases hm

theorem mergeWs_none {c : Cont} {v : Item} (h : v.isWhitespace = false) : mergeWs c v = none := by
  unfold mergeWs
  split
  · cases h
  · rfl

theorem parseItem_good {st s : St} {k : Option Key} {v : Item} (h : parseItem st = .ok (some (k, v)) s) : v.Good PW := by
  have := parseItem_does st
  unfold P.wp at this
  rw [h] at this
  exact (this.some k v rfl).2.2

/-- a loop that reads items into a container; `E` is what is known of the scanned text between two items -/
def Sink {α : Type} (E : Str → Prop) (L : Nat → Cont → St → Res α) : Prop :=
  ∀ (n : Nat) (c c' : Cont) (st s1 : St) (k : Option Key) (v : Item), st.rest ≠ [] → st.cur ≠ 91 →
    parseItem st = .ok (some (k, v)) s1 →
    (k = none ∧ mergeWs c v = some c' ∨ mergeWs c v = none ∧ (∀ b, Cont.append b c k v = .ok (c', false)) ∧
      ∀ k1 r, k.map Key.parts = some (k1 :: r) → ∃ b, Cont.has (fuelFor c' (.null {})) c' k1.key = .ok b) →
    ∃ e l, L (n + 1) c st = L n c' ⟨s1.rest, e, s1.aot, l⟩ ∧ E e

theorem lines_read {α : Type} {E : Str → Prop} {F : Nat → Cont → St → Res α} (hL : Sink E F) {text tail : Str} {L : List (List Str × PyVal)}
    (h : Lines text tail L) : ∀ (n : Nat) (c : Cont) (L0 : List (List Str × PyVal)) (e : Str) (a : List Key) (lg : List Loss),
      text.length ≤ n → E e → c.Good PW → DotBody Means c L0 → Apart (L0 ++ L) →
      ∃ n' c' e' lg' b, Spaces b ∧ (tail = [] → b = []) ∧ F n c ⟨text, e, a, lg⟩ = F n' c' ⟨b ++ tail, e', a, lg'⟩ ∧ DotBody Means c' (L0 ++ L) ∧
        n + (b ++ tail).length ≤ n' + text.length ∧ E e' ∧ c'.Good PW := by
  induction h with
  | stop =>
    intro n c L0 e a lg _ hE hg hc _
    exact ⟨n, c, e, lg, [], Spaces.nil, fun _ => rfl, rfl, by simpa using hc, Nat.le_refl _, hE, hg⟩
  | @ind b tail hb h =>
    intro n c L0 e a lg _ hE hg hc _
    exact ⟨n, c, e, lg, b, hb, (fun h0 => by obtain ⟨r, h⟩ := h; rw [h] at h0; cases h0), rfl, by simpa using hc, Nat.le_refl _, hE, hg⟩
  | @blank s nl t tail L hs hn hne h ih =>
    intro n c L0 e a lg hlen hE hg hc hd
    obtain ⟨x, e1, h1⟩ := item_blank hs hn hne e a lg
    have hgi := parseItem_good h1
    have hpos : 0 < (s ++ nl).length := List.length_pos_iff.2 hne
    obtain ⟨m, rfl⟩ : ∃ m, n = m + 1 := ⟨n - 1, by simp at hlen hpos; omega⟩
    have hnil : s ++ (nl ++ t) ≠ [] := by
      rw [← List.append_assoc]; intro h0; exact hne (List.append_eq_nil_iff.1 h0).1
    have hcur : (St.mk (s ++ (nl ++ t)) e a lg).cur ≠ 91 := by
      intro h0
      cases s with
      | nil => cases hn <;> simp [St.cur] at h0 hne
      | cons y s =>
        have := hs y (by simp)
        simp only [St.cur, List.cons_append] at h0
        rw [h0] at this; cases this
    rcases hm : mergeWs c (.ws x false) with _ | c1
    · obtain ⟨e2, l2, q, hE2⟩ := hL m c _ _ _ none _ hnil hcur h1 (.inr ⟨hm, fun b => append_none_any rfl b, (fun _ _ h => by cases h)⟩)
      rw [q]
      obtain ⟨n', c', e', lg', bb, rb, rb', r1, r2, r3, r4, r5⟩ := ih m _ L0 e2 a l2 (by simp at hlen hpos ⊢; omega) hE2 (append_good closed_PW hg hgi (append_none_any rfl true))
        (hc.put rfl _) hd
      exact ⟨n', c', e', lg', bb, rb, rb', r1, r2, by simp at hpos r3 ⊢; omega, r4, r5⟩
    · obtain ⟨e2, l2, q, hE2⟩ := hL m c _ _ _ none _ hnil hcur h1 (.inl ⟨rfl, hm⟩)
      rw [q]
      obtain ⟨n', c', e', lg', bb, rb, rb', r1, r2, r3, r4, r5⟩ := ih m c1 L0 e2 a l2 (by simp at hlen hpos ⊢; omega) hE2 (mergeWs_good hg hm) (hc.merge hm) hd
      exact ⟨n', c', e', lg', bb, rb, rb', r1, r2, by simp at hpos r3 ⊢; omega, r4, r5⟩
  | @cmt ind s nl t tail L hi hs hn h ih =>
    intro n c L0 e a lg hlen hE hg hc hd
    obtain ⟨tv, e1, h1, h2, _⟩ := item_cmt hi hs hn e a lg
    have hgi := parseItem_good h1
    obtain ⟨m, rfl⟩ : ∃ m, n = m + 1 := ⟨n - 1, by simp at hlen; omega⟩
    have hcur : (St.mk (ind ++ (35 :: (s ++ (nl ++ t)))) e a lg).cur ≠ 91 := by
      intro h0
      cases ind with
      | nil => simp [St.cur] at h0
      | cons y s =>
        have := hi y (by simp)
        simp only [St.cur, List.cons_append] at h0
        rw [h0] at this; cases this
    obtain ⟨e2, l2, q, hE2⟩ := hL m c _ _ _ none _ (by simp) hcur h1 (.inr ⟨mergeWs_none rfl, fun b => append_none_any rfl b, (fun _ _ h => by cases h)⟩)
    rw [q]
    obtain ⟨n', c', e', lg', bb, rb, rb', r1, r2, r3, r4, r5⟩ := ih m _ L0 e2 a l2 (by simp at hlen ⊢; omega) hE2 (append_good closed_PW hg hgi (append_none_any rfl true))
      (hc.put rfl _) hd
    exact ⟨n', c', e', lg', bb, rb, rb', r1, by simpa using r2, by simp at r3 ⊢; omega, r4, r5⟩
  | @kv ind K sp txt b cm nl t tail p w L hi hK hs hr hb hc' hn h ih =>
    intro n c L0 e a lg hlen hE hg hc hd
    obtain ⟨key, i, e1, l1, h1, h2, h3, h4⟩ := item_kv hi hK hs hr hb hc' hn e a lg
    have hgi := parseItem_good h1
    obtain ⟨m, rfl⟩ : ∃ m, n = m + 1 := ⟨n - 1, by simp at hlen; omega⟩
    obtain ⟨_, ⟨x, K', hK', hx, _, _, _, _, hx91⟩, _⟩ := hK
    have hcur : (St.mk (ind ++ (K ++ 61 :: (sp ++ (txt ++ (b ++ (cm ++ (nl ++ t))))))) e a lg).cur ≠ 91 := by
      intro h0
      cases ind with
      | nil => rw [hK'] at h0; simp [St.cur] at h0; exact hx91 h0
      | cons y s =>
        have := hi y (by simp)
        simp only [St.cur, List.cons_append] at h0
        rw [h0] at this; cases this
    rw [List.append_cons L0] at hd ⊢
    obtain ⟨c1, a1, a2⟩ := dot_append hc h2 h3 h4 hd.left
    obtain ⟨e2, l2, q, hE2⟩ := hL m c _ _ _ (some key) _ (by simp) hcur h1 (.inr ⟨mergeWs_none (means_kind h3).1, a1, fun k1 r _ => by
      obtain ⟨b, hb, _⟩ := dot_has c1.size k1.key (fuelFor c1 (.null {})) a2 hd.left a2.toDotIdx.depth (by unfold fuelFor; omega)
      exact ⟨b, hb⟩⟩)
    rw [q]
    obtain ⟨n', c', e', lg', bb, rb, rb', r1, r2, r3, r4, r5⟩ := ih m c1 (L0 ++ [(p, w)]) e2 a l2 (by simp at hlen ⊢; omega) hE2 (append_good closed_PW hg hgi (a1 true))
      a2 hd
    exact ⟨n', c', e', lg', bb, rb, rb', r1, r2, by simp at r3 ⊢; omega, r4, r5⟩

theorem wrapErr_ok {α : Type} (x : α) (st : St) : wrapErr (.ok x) st = .ok x st := rfl

theorem note_ok (b : Bool) (y : Loss) (st : St) : note b y st = .ok () { st with loss := st.loss ++ (if b then [y] else []) } := by
  cases b <;> simp [note]

/-- the first loop of `parse` -/
theorem sink_top : Sink (· = []) topItems := by
  intro n c c' st s1 k v h0 h91 hp h
  have hcond : ¬ ((st.atEnd || decide (st.cur = 91)) = true) := by
    have : st.atEnd = false := by unfold St.atEnd; cases hr : st.rest <;> simp_all
    simp [this, h91]
  rw [topItems, getSt_bind, if_neg hcond, P.bind_def, hp]
  dsimp only
  rcases h with ⟨rfl, h⟩ | ⟨h1, h2, _⟩
  · rw [if_neg (by simp), h]
    exact ⟨[], s1.loss, rfl, rfl⟩
  · rw [h1, ite_self]
    dsimp only
    rw [h2, P.bind_def, wrapErr_ok]
    dsimp only
    rw [P.bind_def, note_ok]
    exact ⟨[], _, rfl, rfl⟩

theorem lift_ok' {α : Type} (x : α) (st : St) : lift (.ok x) st = .ok x st := rfl

/-- the loop over the entries of a table -/
theorem sink_table (full : Key) (tb : Tbl) : Sink (fun _ => True) fun n c => tableLoop n full (tb.setCont c) := by
  intro n c c' st s1 k v h0 h91 hp h
  have hend : ¬ (st.atEnd = true) := by unfold St.atEnd; cases hr : st.rest <;> simp_all
  dsimp only
  rw [tableLoop, getSt_bind, if_neg hend, P.bind_def, hp]
  dsimp only
  rw [setCont_cont]
  rcases h with ⟨rfl, h⟩ | ⟨h1, h2, h3⟩
  · rw [h]
    dsimp only
    rw [setCont_setCont]
    exact ⟨s1.ext, s1.loss, rfl, trivial⟩
  · rw [h1]
    dsimp only
    have hr : (tb.setCont c).rawAppend k v = .ok (tb.setCont c', false) := by
      unfold Tbl.rawAppend
      rw [setCont_cont, h2]
      dsimp only
      rcases hk : k.map Key.parts with _ | _ | ⟨k1, r⟩
      · dsimp only; rw [setCont_setCont]
      · dsimp only; rw [setCont_setCont]
      · obtain ⟨b, hb⟩ := h3 k1 r hk
        dsimp only
        rw [hb]
        dsimp only
        rw [setCont_setCont]
    rw [hr, P.bind_def, lift_ok']
    dsimp only
    rw [P.bind_def, note_ok]
    exact ⟨_, _, rfl, trivial⟩

end Tomlkit
