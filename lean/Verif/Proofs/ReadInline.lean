import Verif.Proofs.Reads
import Verif.Proofs.DotAppend
import Verif.Proofs.DictRef
/-!
# Reading keys, key/value pairs and inline tables
-/
namespace Tomlkit
open _root_.Spec Tomlkit.Spec

/-- spaces and tabs -/
def Spaces (b : Str) : Prop := ∀ c ∈ b, isSpaces c = true

theorem Spaces.nil : Spaces [] := fun c hc => by cases hc
theorem Blank.spaces {b : Str} (h : Blank b) : Spaces b := fun c hc => by rw [h c hc]; rfl

/-- In front of an equals sign the text is read as the key `k`. -/
def KeyReads (K : Str) (k : Str) : Prop :=
  (∃ c r, K = c :: r ∧ isSpTabCr c = false ∧ c ≠ 125 ∧ c ≠ 44 ∧ c ≠ 10 ∧ c ≠ 35 ∧ c ≠ 91) ∧
  ∀ (n : Nat) (tail e : Str) (a : List Key) (l : List Loss), ∃ sk e', sk.key = k ∧ sk.orig = K ∧ sk.dotted = false ∧ sk.sep = [] ∧
    parseKey (n + 1) ⟨K ++ 61 :: tail, e, a, l⟩ = .ok (.single sk) ⟨61 :: tail, e', a, l⟩

/-- In front of an equals sign the text is read as a key with these parts. -/
def PathReads (K : Str) (p : List Str) : Prop :=
  p ≠ [] ∧ (∃ c r, K = c :: r ∧ isSpTabCr c = false ∧ c ≠ 125 ∧ c ≠ 44 ∧ c ≠ 10 ∧ c ≠ 35 ∧ c ≠ 91) ∧
  ∀ (tail e : Str) (a : List Key) (l : List Loss), ∃ key e', key.parts.map SKey.key = p ∧
    parseKeyHere ⟨K ++ 61 :: tail, e, a, l⟩ = .ok key ⟨61 :: tail, e', a, l⟩

theorem KeyReads.path {K k : Str} (h : KeyReads K k) : PathReads K [k] := by
  refine ⟨by simp, h.1, fun tail e a l => ?_⟩
  obtain ⟨sk, e', h1, _, _, _, h2⟩ := h.2 (K ++ 61 :: tail).length tail e a l
  refine ⟨.single sk, e', by simp [Key.parts, h1], ?_⟩
  unfold parseKeyHere
  rw [getSt_bind, h2]

theorem setSep_names (s : Str) (k : Key) : (k.setSep s).parts.map SKey.key = k.parts.map SKey.key := by cases k <;> rfl

theorem takeWhile_all' {p : Chr → Bool} {s : Str} (h : ∀ c ∈ s, p c = true) : s.takeWhile p = s := by
  induction s with
  | nil => rfl
  | cons c s ih => simp [h c (by simp), ih fun x hx => h x (by simp [hx])]

theorem spaces_uni {c : Chr} (h : isSpaces c = true) : isUniSpace c = true := by
  simp only [isSpaces, Bool.or_eq_true, beq_iff_eq] at h
  rcases h with rfl | rfl <;> rfl

theorem strip_bare_spaces {k b : Str} (h : ∀ c ∈ k, isBareChar c = true) (hne : k ≠ []) (hb : Spaces b) : strip (k ++ b) = k := by
  have h' : ∀ c ∈ k, isUniSpace c = false := fun c hc => bare_not_space (h c hc)
  unfold strip
  obtain ⟨c, r, rfl⟩ := List.exists_cons_of_ne_nil hne
  have h1 : ((c :: r) ++ b).dropWhile isUniSpace = (c :: r) ++ b := by
    simp [h' c (by simp)]
  rw [h1, List.reverse_append]
  generalize hk : c :: r = k at *
  have h2 : (b.reverse ++ k.reverse).dropWhile isUniSpace = k.reverse := by
    have hr : ∀ x ∈ b.reverse, isUniSpace x = true := fun x hx => spaces_uni (hb x (by simpa using hx))
    generalize b.reverse = q at hr
    induction q with
    | nil => exact dropWhile_none (by simpa using h')
    | cons x q ih =>
      have hx := hr x (List.mem_cons_self ..)
      simp only [List.cons_append, List.dropWhile_cons, hx, if_true]
      exact ih fun y hy => hr y (List.mem_cons_of_mem _ hy)
  rw [h2, List.reverse_reverse]

theorem bare_head {c : Chr} (hc : isBareChar c = true) : isSpTabCr c = false ∧ c ≠ 125 ∧ c ≠ 44 ∧ c ≠ 10 ∧ c ≠ 35 ∧ c ≠ 91 ∧
    isSpaces c = false ∧ c ≠ 34 ∧ c ≠ 39 ∧ c ≠ 32 := by
  simp only [isBareChar, isAsciiLetter, isDigit, Bool.or_eq_true, Bool.and_eq_true, decide_eq_true_eq,
    beq_iff_eq] at hc
  simp only [isSpaces, isSpTabCr, Bool.or_eq_false_iff, beq_eq_false_iff_ne]
  omega

/-- the spelling that `SingleKey(k)` chooses, with blanks behind it -/
theorem keyReads_mkKey (k : Str) {b : Str} (hb : Blank b) : KeyReads ((mkKey k).orig ++ b) k := by
  cases hq : needsQuotes k with
  | true =>
    simp only [mkKey, hq, if_true, escapeString_basic]
    refine ⟨⟨34, escEach slbEsc k ++ [34] ++ b, by simp, rfl, by omega, by omega, by omega, by omega, by omega⟩, fun n tail e a l => ?_⟩
    have hne : (b ++ 61 :: tail).head? ≠ some 34 := by
      rcases b with _ | ⟨c, r⟩
      · simp
      · have := hb c (List.mem_cons_self ..); subst this; simp
    obtain ⟨e1, h1⟩ := parseString_slb k (b ++ 61 :: tail) [] a l hne
    have hs61 : isSpaces 61 = false := rfl
    have t1 := takeWhile_append_stop (p := isSpaces) hb.spaces hs61 tail
    have t2 := dropWhile_append_stop (p := isSpaces) hb.spaces hs61 tail
    refine ⟨SKey.mk k .basic [] ([] ++ ([34] ++ escEach slbEsc k ++ [34]) ++ b) false, b, rfl, by simp, rfl, rfl, ?_⟩
    have h34 : isSpaces 34 = false := rfl
    have e0 : 34 :: (escEach slbEsc k ++ [34]) ++ b ++ 61 :: tail = 34 :: (escEach slbEsc k ++ 34 :: (b ++ 61 :: tail)) := by simp
    rw [e0]
    conv => lhs; unfold parseKey
    simp [h34, P.bind_def, h1, StrType.isMultiline, StrType.value, t1, t2]
  | false =>
    obtain ⟨hne, hbare⟩ := bare_spec hq
    simp only [mkKey, hq]
    obtain ⟨c, k', rfl⟩ : ∃ c k', k = c :: k' := List.exists_cons_of_ne_nil hne
    obtain ⟨q1, q2, q3, q4, q5, q6, q7, q8, q9, _⟩ := bare_head (hbare c (by simp))
    simp only [Bool.false_eq_true, if_false]
    refine ⟨⟨c, k' ++ b, rfl, q1, q2, q3, q4, q5, q6⟩, fun n tail e a l => ?_⟩
    have hstop : (isBareChar 61 || isSpaces 61) = false := rfl
    have hall : ∀ x ∈ (c :: k') ++ b, (isBareChar x || isSpaces x) = true := fun x hx => by
      rcases List.mem_append.1 hx with hx | hx
      · simp [hbare x hx]
      · simp [hb.spaces x hx]
    have t1 := takeWhile_append_stop (p := fun c => isBareChar c || isSpaces c) hall hstop tail
    have t2 := dropWhile_append_stop (p := fun c => isBareChar c || isSpaces c) hall hstop tail
    refine ⟨{ key := c :: k', t := .bare, sep := [], orig := (c :: k') ++ b }, (c :: k') ++ b, rfl, rfl, rfl, rfl, ?_⟩
    have h32 : (c :: k').contains 32 = false := by
      cases hh : (c :: k').contains 32
      · rfl
      · have := hbare 32 (by simpa using hh)
        simp [isBareChar, isAsciiLetter, isDigit] at this
    have s1 : ((c :: k') ++ b ++ 61 :: tail).takeWhile isSpaces = [] := by simp [q7]
    have s2 : ((c :: k') ++ b ++ 61 :: tail).dropWhile isSpaces = (c :: k') ++ b ++ 61 :: tail := by simp [q7]
    have s3 : ∀ e, (St.mk ((c :: k') ++ b ++ 61 :: tail) e a l).cur = c := fun _ => rfl
    have s4 := strip_bare_spaces hbare hne hb.spaces
    generalize (c :: k') ++ b ++ 61 :: tail = X at *
    conv => lhs; unfold parseKey
    simp only [mark_bind, skip_bind, getSt_bind, s1, s2, s3, q8, q9, decide_false, Bool.or_self,
      Bool.false_eq_true, if_false, extract_bind, t1, t2, List.append_nil, List.nil_append, s4, h32,
      List.isEmpty_cons, St.cur_cons]
    simp

/-- the separator of a pair -/
theorem parseSep_reads {sp : Str} (hs : Spaces sp) {X : Str} (hX : ∀ c r, X = c :: r → isKvSep c = false) (e a l) :
    parseSep ⟨61 :: (sp ++ X), e, a, l⟩ = .ok (61 :: sp) ⟨X, 61 :: sp, a, l⟩ := by
  have hk : ∀ c ∈ sp, isKvSep c = true := fun c hc => by
    have := hs c hc
    simp only [isSpaces, Bool.or_eq_true, beq_iff_eq] at this
    rcases this with rfl | rfl <;> rfl
  have h61 : ∀ c ∈ sp, c ≠ 61 := fun c hc h0 => by
    have := hs c hc; rw [h0] at this; cases this
  have t1 : (61 :: (sp ++ X)).takeWhile isKvSep = 61 :: sp := by
    have : isKvSep 61 = true := rfl
    rw [List.takeWhile_cons, this]
    rcases X with _ | ⟨c, r⟩
    · simp [takeWhile_all' hk]
    · rw [takeWhile_append_stop hk (hX c r rfl)]; rfl
  have h3 : sp.contains 61 = false := by
    cases hh : sp.contains 61
    · rfl
    · exact absurd rfl (h61 61 (by simpa using hh))
  have hd : (61 :: (sp ++ X)).drop (61 :: sp).length = X := by simp
  have ht : (61 :: (sp ++ X)).take (61 :: sp).length = 61 :: sp := by simp
  unfold parseSep
  simp only [mark_bind, getSt_bind, t1]
  rw [if_neg (by simp), if_neg, stepN_bind, hd, ht]
  · rfl
  · simp
    simpa using h3

theorem kv_head {K k : Str} (hK : KeyReads K k) {ind sp X : Str} (hi : Spaces ind) (hs : Spaces sp)
    (hX : ∀ c r, X = c :: r → isKvSep c = false) (n : Nat) (e a l) :
    ∃ sk, sk.key = k ∧ sk.orig = K ∧ sk.dotted = false ∧ sk.sep = 61 :: sp ∧ ∀ pc,
      parseKeyValue (n + 1) pc ⟨ind ++ (K ++ 61 :: (sp ++ X)), e, a, l⟩ = (do
        let val ← parseValue n
        let t := val.trivia
        if pc then
          let (cws, comment, trail) ← parseCommentTrail true
          note (!t.commentWs.isEmpty && !cws.isEmpty) .dateWs
          return (Key.single sk, val.setTrivia ⟨ind, if t.commentWs.isEmpty then cws else t.commentWs, comment, trail⟩)
        else return (Key.single sk, val.setTrivia { t with indent := ind, trail := [] })) ⟨X, 61 :: sp, a, l⟩ := by
  obtain ⟨⟨c, r, hc, hsp, _⟩, hr⟩ := hK
  obtain ⟨sk, e', h1, h2, h3, h4, h5⟩ := hr ((K ++ 61 :: (sp ++ X)).length) (sp ++ X) ind a l
  refine ⟨{ sk with sep := 61 :: sp }, h1, h2, h3, rfl, fun pc => ?_⟩
  have hcs : isSpaces c = false := by
    simp only [isSpTabCr, Bool.or_eq_false_iff] at hsp
    simp [isSpaces, hsp.1]
  have t1 : (ind ++ (K ++ 61 :: (sp ++ X))).takeWhile isSpaces = ind := by
    rw [hc]; exact takeWhile_append_stop hi hcs _
  have t2 : (ind ++ (K ++ 61 :: (sp ++ X))).dropWhile isSpaces = K ++ 61 :: (sp ++ X) := by
    rw [hc]; exact dropWhile_append_stop hi hcs _
  rw [parseKeyValue]
  simp only [mark_bind, skip_bind, extract_bind, t1, t2, List.nil_append]
  rw [P.bind_def]
  unfold parseKeyHere
  rw [getSt_bind, h5]
  dsimp only
  rw [P.bind_def, parseSep_reads hs hX]
  dsimp only
  rw [Key.sep, h4]
  rfl

theorem kv_headD {K : Str} {p : List Str} (hK : PathReads K p) {ind sp X : Str} (hi : Spaces ind) (hs : Spaces sp)
    (hX : ∀ c r, X = c :: r → isKvSep c = false) (n : Nat) (e a l) :
    ∃ key, key.parts.map SKey.key = p ∧ ∀ pc,
      parseKeyValue (n + 1) pc ⟨ind ++ (K ++ 61 :: (sp ++ X)), e, a, l⟩ = (do
        let val ← parseValue n
        let t := val.trivia
        if pc then
          let (cws, comment, trail) ← parseCommentTrail true
          note (!t.commentWs.isEmpty && !cws.isEmpty) .dateWs
          return (key, val.setTrivia ⟨ind, if t.commentWs.isEmpty then cws else t.commentWs, comment, trail⟩)
        else return (key, val.setTrivia { t with indent := ind, trail := [] })) ⟨X, 61 :: sp, a, l⟩ := by
  obtain ⟨_, ⟨c, r, hc, hsp, _⟩, hr⟩ := hK
  obtain ⟨key, e', h1, h5⟩ := hr (sp ++ X) ind a l
  refine ⟨key.setSep (key.sep ++ 61 :: sp), by rw [setSep_names]; exact h1, fun pc => ?_⟩
  have hcs : isSpaces c = false := by
    simp only [isSpTabCr, Bool.or_eq_false_iff] at hsp
    simp [isSpaces, hsp.1]
  have t1 : (ind ++ (K ++ 61 :: (sp ++ X))).takeWhile isSpaces = ind := by
    rw [hc]; exact takeWhile_append_stop hi hcs _
  have t2 : (ind ++ (K ++ 61 :: (sp ++ X))).dropWhile isSpaces = K ++ 61 :: (sp ++ X) := by
    rw [hc]; exact dropWhile_append_stop hi hcs _
  rw [parseKeyValue]
  simp only [mark_bind, skip_bind, extract_bind, t1, t2, List.nil_append]
  rw [P.bind_def, h5]
  dsimp only
  rw [P.bind_def, parseSep_reads hs hX]

/-! ## The container of what was read -/

/-- a container that the parser fills with values -/
structure ReadCont (c : Cont) (l : List PyPair) : Prop where
  parsed : c.parsed = true
  wf : c.WF
  dict : c.dict = l.map PyPair.key
  holds : MeansIn l c

theorem holdsIn_mono {c c' : Cont} (h : ∀ k i, c.item k = .ok (.inl i) → c'.item k = .ok (.inl i)) :
    ∀ (l : List PyPair), HoldsIn l c → HoldsIn l c'
  | [], _ => by unfold HoldsIn; trivial
  | .mk k v :: r, hl => by
    unfold HoldsIn at hl ⊢
    refine ⟨?_, holdsIn_mono h r hl.2⟩
    have h1 := hl.1
    unfold HoldsPair at h1 ⊢
    obtain ⟨i, g1, g2⟩ := h1
    exact ⟨i, h k i g1, g2⟩

theorem holdsIn_append {c : Cont} : ∀ (l : List PyPair) {m : List PyPair}, HoldsIn l c → HoldsIn m c → HoldsIn (l ++ m) c
  | [], _, _, hm => hm
  | _ :: r, _, hl, hm => by
    rw [List.cons_append]
    unfold HoldsIn at hl ⊢
    exact ⟨hl.1, holdsIn_append r hl.2 hm⟩

theorem readCont_empty : ReadCont (Cont.empty true) [] :=
  ⟨rfl, Cont.WF_empty _, rfl, MeansIn.nil _⟩

/-- what lines with dotted keys are read to -/
theorem DotBody.read {c : Cont} {L : List (List Str × PyVal)} {l : List PyPair} (h : DotBody Means c L) (hn : Nest L l) (hw : c.WF) : ReadCont c l :=
  ⟨h.parsed, hw, h.toDotIdx.keys hn, h.toDotIdx.means hn⟩

theorem addWs_reads {c : Cont} {L : List (List Str × PyVal)} (h : DotBody Means c L) (raw : Str) (st : St) :
    ∃ c', addWs c raw st = .ok c' st ∧ DotBody Means c' L := by
  unfold addWs
  split
  · exact ⟨c, rfl, h⟩
  · rw [append_none_plain rfl]
    exact ⟨_, rfl, h.put rfl _⟩

theorem ReadCont.absent {c : Cont} {l : List PyPair} (h : ReadCont c l) {k : Str} (hk : k ∉ l.map PyPair.key) : mapGet k c.map = none := by
  rw [← h.dict, h.wf.dictMem] at hk
  rcases hm : mapGet k c.map with _ | is
  · rfl
  · rw [hm] at hk; simp at hk

/-! ## Inline tables -/

variable {q : Prop}

/-- The text of an inline table after the opening brace (or after a part of it). The flag is `none` at the beginning,
`some true` after a comma, `some false` after a pair. -/
inductive InlText (q : Prop) : Option Bool → Str → List (List Str × PyVal) → Prop
  | close {tc : Option Bool} (h : tc ≠ some true) : InlText q tc [125] []
  | sp {tc : Option Bool} {c : Chr} {t : Str} {L : List (List Str × PyVal)} (hc : isSpaces c = true) (hq : q → tc ≠ some false) (h : InlText q tc t L) : InlText q tc (c :: t) L
  | comma {t : Str} {L : List (List Str × PyVal)} (h : InlText q (some true) t L) : InlText q (some false) (44 :: t) L
  | pair {tc : Option Bool} {K sp txt b t : Str} {p : List Str} {w : PyVal} {L : List (List Str × PyVal)} (htc : tc ≠ some false) (hK : PathReads K p)
      (hs : Spaces sp) (hr : ReadsAs q txt w) (hb : Blank b) (hq : q → b = []) (ht : DateEnds t) (h : InlText q (some false) (b ++ t) L) :
      InlText q tc (K ++ 61 :: (sp ++ (txt ++ (b ++ t)))) ((p, w) :: L)

theorem spaces_not_cr {c : Chr} (h : isSpaces c = true) : isSpTabCr c = true := by
  simp only [isSpaces, Bool.or_eq_true, beq_iff_eq] at h
  rcases h with rfl | rfl <;> rfl

theorem InlText.drop1 {tc : Option Bool} {c : Chr} {t : Str} {L : List (List Str × PyVal)} (hc : isSpaces c = true) (h : InlText q tc (c :: t) L) :
    InlText q tc t L := by
  generalize hx : c :: t = x at h
  cases h with
  | close => cases hx; cases hc
  | sp _ _ h => cases hx; exact h
  | comma => cases hx; cases hc
  | pair _ hK =>
    obtain ⟨_, ⟨d, r, rfl, hd, _⟩, _⟩ := hK
    cases hx
    rw [spaces_not_cr hc] at hd; cases hd

theorem InlText.dropSp {tc : Option Bool} {t : Str} {L : List (List Str × PyVal)} (h : InlText q tc t L) : InlText q tc (t.dropWhile isSpaces) L := by
  induction t with
  | nil => exact h
  | cons c t ih =>
    rw [List.dropWhile_cons]
    split
    · rename_i hc
      exact ih (h.drop1 hc)
    · exact h

theorem InlText.mem {tc : Option Bool} {t : Str} {L : List (List Str × PyVal)} (h : InlText q tc t L) : 125 ∈ t := by
  induction h with
  | close => simp
  | sp _ _ _ ih => exact List.mem_cons_of_mem _ ih
  | comma _ ih => exact List.mem_cons_of_mem _ ih
  | pair _ _ _ _ _ _ _ _ ih =>
    exact List.mem_append_right _ (List.mem_cons_of_mem _ (List.mem_append_right _ (List.mem_append_right _ ih)))

theorem InlText.dropBlank {tc : Option Bool} {b t : Str} {L : List (List Str × PyVal)} (hb : Blank b) (h : InlText q tc (b ++ t) L) : InlText q tc t L := by
  induction b with
  | nil => exact h
  | cons c b ih =>
    have hc := hb c (List.mem_cons_self ..)
    exact ih (fun x hx => hb x (List.mem_cons_of_mem _ hx)) (h.drop1 (by rw [hc]; rfl))

/-- the first step of the loop: leading spaces -/
theorem inline_step (n : Nat) (tc : Option Bool) {c c' : Cont} (t : Str) (e a lg)
    (h : addWs c (t.takeWhile isSpaces) ⟨t.dropWhile isSpaces, e ++ t.takeWhile isSpaces, a, lg⟩ =
      .ok c' ⟨t.dropWhile isSpaces, e ++ t.takeWhile isSpaces, a, lg⟩) :
    inlineParse (n + 1) tc c ⟨t, e, a, lg⟩ = (do
      let st ← getSt
      if tc != some true && st.cur = 125 then
        step
        return c'
      else if tc = some false || (tc = none && st.cur = 44) then fail .unexpectedChar
      else if tc = some true && (st.cur = 125 || st.cur = 44) then fail .unexpectedChar
      else
        let (key, val) ← parseKeyValue n false
        let r ← lift (Cont.append true c' (some key) val)
        note r.2 .reordered
        let st ← getSt
        let raw := st.rest.takeWhile isSpaces
        skip isSpaces
        let c ← addWs r.1 raw
        let st ← getSt
        note (!val.trivia.commentWs.isEmpty) .dateWs
        if st.cur = 44 then
          note (!raw.isEmpty) .inlineWs
          stepE
          inlineParse n (some true) c
        else inlineParse n (some false) c) ⟨t.dropWhile isSpaces, e ++ t.takeWhile isSpaces, a, lg⟩ := by
  rw [inlineParse]
  simp only [getSt_bind, skip_bind]
  rw [P.bind_def, h]
  rfl

theorem inline_close (n : Nat) {tc : Option Bool} (htc : tc ≠ some true) {c : Cont} {L : List (List Str × PyVal)} (h : DotBody Means c L)
    {t : Str} (ht : t.dropWhile isSpaces = 125 :: tail) (e a lg) :
    ∃ c' st, inlineParse (n + 1) tc c ⟨t, e, a, lg⟩ = .ok c' st ∧ st.rest = tail ∧ st.aot = a ∧ DotBody Means c' L ∧ st.loss = lg := by
  obtain ⟨c', h1, h2⟩ := addWs_reads h (t.takeWhile isSpaces) ⟨t.dropWhile isSpaces, e ++ t.takeWhile isSpaces, a, lg⟩
  rw [inline_step n tc t e a lg h1, getSt_bind, ht, St.cur_cons]
  have : (tc != some true && decide ((125 : Nat) = 125)) = true := by simp [htc]
  rw [if_pos this]
  exact ⟨c', _, rfl, rfl, rfl, h2, rfl⟩

/-- a pair and what follows it -/
theorem inline_pair (n : Nat) {tc : Option Bool} (htc : tc ≠ some false) {c : Cont} {L : List (List Str × PyVal)} (h : DotBody Means c L)
    {t K sp X : Str} {p : List Str} (hK : PathReads K p) (hs : Spaces sp) (hX : ∀ c r, X = c :: r → isKvSep c = false)
    (ht : t.dropWhile isSpaces = K ++ 61 :: (sp ++ X)) (e a lg) {i : Item} {st : St} {w : PyVal}
    (hv : parseValue n ⟨X, 61 :: sp, a, lg⟩ = .ok i st) (hw : Means w i) (hni : i.isTableLike = false)
    (hA : Apart (L ++ [(p, w)])) :
    ∃ c' lg' e', DotBody Means c' (L ++ [(p, w)]) ∧ (i.trivia.commentWs = [] → st.rest.takeWhile isSpaces = [] → lg' = st.loss) ∧ inlineParse (n + 2) tc c ⟨t, e, a, lg⟩ =
      (if (St.mk (st.rest.dropWhile isSpaces) e' st.aot lg').cur = 44 then
          (stepE >>= fun _ => inlineParse (n + 1) (some true) c') ⟨st.rest.dropWhile isSpaces, e', st.aot, lg'⟩
        else inlineParse (n + 1) (some false) c' ⟨st.rest.dropWhile isSpaces, e', st.aot, lg'⟩) := by
  obtain ⟨c1, h1, h2⟩ := addWs_reads h (t.takeWhile isSpaces) ⟨t.dropWhile isSpaces, e ++ t.takeWhile isSpaces, a, lg⟩
  obtain ⟨key, k1, k5⟩ := kv_headD hK Spaces.nil hs hX n (e ++ t.takeWhile isSpaces) a lg
  have k6 := k5 false
  rw [List.nil_append, P.bind_def, hv] at k6
  obtain ⟨c2, a1, a2⟩ := dot_append h2 k1 (i := i.setTrivia { i.trivia with indent := [], trail := [] }) (means_setTrivia _ hw)
    (by rw [isTableLike_setTrivia]; exact hni) hA
  replace a1 := a1 true
  rcases st with ⟨r1, e1, al, l1⟩
  obtain ⟨c3, b1, b2⟩ := addWs_reads a2 (r1.takeWhile isSpaces) ⟨r1.dropWhile isSpaces, e1 ++ r1.takeWhile isSpaces, al, l1⟩
  obtain ⟨_, ⟨d, r, hd, _, d1, d2, _⟩, _⟩ := hK
  have hcur : ∀ e' l', (St.mk (t.dropWhile isSpaces) e' a l').cur = d := by intro e' l'; rw [ht, hd]; rfl
  have e44 : tc ≠ some true ∨ tc = some true := by by_cases h0 : tc = some true <;> simp [h0]
  have c1f : (tc != some true && decide (d = 125)) = false := by simp [d1]
  have c2f : (decide (tc = some false) || (decide (tc = none) && decide (d = 44))) = false := by simp [htc, d2]
  have c3f : (decide (tc = some true) && (decide (d = 125) || decide (d = 44))) = false := by simp [d1, d2]
  rw [inline_step (n + 1) tc t e a lg h1, getSt_bind]
  simp only [hcur, c1f, c2f, c3f, Bool.false_eq_true, if_false]
  rw [ht, P.bind_def, k6]
  simp only [Bool.false_eq_true, if_false, P.pure_def]
  rw [P.bind_def, a1]
  have hn0 : ∀ st, note false .reordered st = .ok () st := fun _ => rfl
  have hlift : lift (Except.ok (c2, false)) = (fun st => Res.ok (c2, false) st : P (Cont × Bool)) := rfl
  rw [hlift]
  dsimp only
  rw [P.bind_def, hn0]
  simp only [getSt_bind, skip_bind]
  rw [P.bind_def, b1]
  simp only [getSt_bind]
  generalize hb : (!(Item.setTrivia { i.trivia with indent := [], trail := [] } i).trivia.commentWs.isEmpty) = bb
  have hbb : i.trivia.commentWs = [] → bb = false := by
    intro h0
    rw [← hb, setTrivia_trivia (means_kind hw).1]
    dsimp only
    rw [h0]; rfl
  have hn : ∀ (b : Bool) (y : Loss) st, note b y st = .ok () { st with loss := st.loss ++ (if b then [y] else []) } := by
    intro b y st; cases b <;> simp [note]
  rw [P.bind_def, hn]
  dsimp only
  by_cases h44 : (St.mk (r1.dropWhile isSpaces) (e1 ++ r1.takeWhile isSpaces) al l1).cur = 44
  · refine ⟨c3, (l1 ++ if bb then [.dateWs] else []) ++ (if (!(r1.takeWhile isSpaces).isEmpty) then [.inlineWs] else []),
      e1 ++ r1.takeWhile isSpaces, b2, fun h1 h2 => ?_, ?_⟩
    · rw [hbb h1]
      have h2 : r1.takeWhile isSpaces = [] := h2
      rw [h2]; simp
    rw [if_pos h44, P.bind_def, hn]
    exact (if_pos h44).symm
  · refine ⟨c3, (l1 ++ if bb then [.dateWs] else []), e1 ++ r1.takeWhile isSpaces, b2, fun h1 _ => by rw [hbb h1]; simp, ?_⟩
    rw [if_neg h44]
    exact (if_neg h44).symm

theorem reads_noKvSep {txt : Str} {w : PyVal} (h : ReadsAs q txt w) (t : Str) : ∀ c r, txt ++ t = c :: r → isKvSep c = false := by
  obtain ⟨d, r, rfl, hd⟩ := h.head
  intro c r' he
  cases he
  obtain ⟨h1, _, _, _, h5, _⟩ := notWs_of_no hd
  simp only [isWs, Bool.or_eq_false_iff] at h1
  simp only [isSpaces, Bool.or_eq_false_iff] at h1
  simp [isKvSep, h5, h1.1.1, h1.1.2]

theorem inlineParse_reads : ∀ (m : Nat) {t : Str} {tc : Option Bool} {L : List (List Str × PyVal)}, t.length ≤ m → InlText q tc t L →
    tc ≠ some false → ∀ (n : Nat) (tail : Str) (c : Cont) (L0 : List (List Str × PyVal)) (e : Str) (a : List Key) (lg : List Loss), t.length < n →
    DotBody Means c L0 → Apart (L0 ++ L) →
    ∃ c' st, inlineParse n tc c ⟨t ++ tail, e, a, lg⟩ = .ok c' st ∧ st.rest = tail ∧ st.aot = a ∧ DotBody Means c' (L0 ++ L) ∧ (q → st.loss = lg) := by
  intro m
  induction m with
  | zero =>
    intro t tc L hm h
    have := h.mem
    rcases t with _ | _
    · cases this
    · simp at hm
  | succ m ih =>
    intro t tc L hm h htc n tail c L0 e a lg hn hc hnew
    obtain ⟨n, rfl⟩ := succ_of_lt hn
    obtain ⟨s1, s2, s3⟩ := span_stop (tail := tail) (p := isSpaces) h.mem rfl
    have hd := h.dropSp
    have hlen : (t.takeWhile isSpaces).length + (t.dropWhile isSpaces).length = t.length := by
      rw [← List.length_append, List.takeWhile_append_dropWhile]
    generalize hx : t.dropWhile isSpaces = x at hd hlen s2 s3
    have hns : ∀ c r, x = c :: r → isSpaces c = false := by
      intro c r h0
      have := List.head?_dropWhile_not isSpaces t
      rw [hx, h0] at this
      simpa using this
    cases hd with
    | close htc' =>
      obtain ⟨c', st, g1, g2, g3, g4, gq⟩ := inline_close n htc' hc (t := t ++ tail) (tail := tail) (by rw [s2]; rfl) e a lg
      exact ⟨c', st, g1, g2, g3, by rw [List.append_nil]; exact g4, fun _ => gq⟩
    | sp hc' _ _ => rw [hns _ _ rfl] at hc'; cases hc'
    | comma => exact absurd rfl htc
    | @pair _ K sp txt b t' p w L' _ hK hs hr hb hqb ht' h' =>
      have htne : t' ≠ [] := by
        have := (h'.dropBlank hb).mem
        intro h0; rw [h0] at this; cases this
      have htl' : DateEnds (t' ++ tail) := by
        rcases ht' with h0 | ⟨d, r, h0, hd0⟩
        · exact absurd h0 htne
        · exact .inr ⟨d, r ++ tail, by rw [h0]; rfl, hd0⟩
      have hKl : K.length ≥ 1 := by obtain ⟨_, ⟨d, r, rfl, _⟩, _⟩ := hK; simp
      have htl1 : t'.length ≥ 1 := List.length_pos_iff.2 htne
      simp only [List.length_append, List.length_cons] at hlen
      obtain ⟨n, rfl⟩ : ∃ k, n = k + 1 := ⟨n - 1, by omega⟩
      obtain ⟨i, st, g1, g2, g3, g4, g5, gq⟩ := hr n b (t' ++ tail) (61 :: sp) a lg (by omega) hb htl'
      have e1 : (K ++ 61 :: (sp ++ (txt ++ (b ++ t')))) ++ tail = K ++ 61 :: (sp ++ (txt ++ (b ++ (t' ++ tail)))) := by simp
      rw [e1] at s2
      rw [List.append_cons] at hnew ⊢
      obtain ⟨c', lg', e', k1, kq, k2⟩ := inline_pair n htc hc hK hs (reads_noKvSep hr _) s2 e a lg g1 g2 g3 hnew.left
      rw [k2]
      -- what follows the blanks
      have hrest : ∃ u, InlText q (some false) u L' ∧ u.length ≤ m ∧ u.length < n + 1 ∧ st.rest.dropWhile isSpaces = u ++ tail ∧
          ∀ c r, u = c :: r → isSpaces c = false := by
        have key : ∀ {u : Str}, InlText q (some false) u L' → u.length ≤ m → u.length < n + 1 → st.rest = u ++ tail →
            ∃ u, InlText q (some false) u L' ∧ u.length ≤ m ∧ u.length < n + 1 ∧ st.rest.dropWhile isSpaces = u ++ tail ∧
            ∀ c r, u = c :: r → isSpaces c = false := by
          intro u hu h1 h2 h3
          obtain ⟨_, q2, _⟩ := span_stop (tail := tail) (p := isSpaces) hu.mem rfl
          have hle : (u.dropWhile isSpaces).length ≤ u.length := (List.dropWhile_suffix _).length_le
          refine ⟨u.dropWhile isSpaces, hu.dropSp, by omega, by omega, by rw [h3, q2], fun c r h0 => ?_⟩
          have := List.head?_dropWhile_not isSpaces u
          rw [h0] at this
          simpa using this
        rcases g5 with ⟨_, g5⟩ | ⟨_, g5⟩
        · exact key h' (by simp only [List.length_append]; omega) (by simp only [List.length_append]; omega) (by rw [g5]; simp)
        · exact key (h'.dropBlank hb) (by omega) (by omega) g5
      have hlg : q → lg' = lg := by
        intro h
        rw [kq, gq h]
        · rcases g5 with ⟨h0, _⟩ | ⟨h0, _⟩
          · exact h0
          · rw [h0]; exact hqb h
        · have hb0 := hqb h
          subst hb0
          have hr0 : st.rest = t' ++ tail := by
            rcases g5 with ⟨_, h0⟩ | ⟨_, h0⟩ <;> exact h0
          rw [hr0]
          cases h' with
          | close => rfl
          | sp _ hq _ => exact absurd rfl (hq h)
          | comma => rfl
          | pair h0 => exact absurd rfl h0
      obtain ⟨u, hu, u1, u2, u3, u4⟩ := hrest
      rw [u3, g4]
      cases hu with
      | close _ =>
        rw [if_neg (by intro h0; cases h0)]
        obtain ⟨c'', st', j1, j2, j3, j4, jq⟩ := inline_close n (tc := some false) (by simp) k1 (t := 125 :: tail) (tail := tail) rfl e' a lg'
        exact ⟨c'', st', j1, j2, j3, by simpa using j4, fun h => jq.trans (hlg h)⟩
      | sp hc' _ _ => rw [u4 _ _ rfl] at hc'; cases hc'
      | @comma u' _ hu' =>
        rw [if_pos (show (St.mk (44 :: u' ++ tail) e' a lg').cur = 44 from rfl)]
        have hne : u' ++ tail ≠ [] := by
          have := hu'.mem
          intro h0
          rw [(List.append_eq_nil_iff.1 h0).1] at this; cases this
        rw [List.cons_append, stepE_bind_cons' _ _ _ _ _ _ hne]
        obtain ⟨c'', st', j1, j2, j3, j4, jq⟩ := ih (by simp at u1; omega) hu' (by simp) (n + 1) tail c' (L0 ++ [(p, w)]) (e' ++ [44]) a lg'
          (by simp at u2; omega) k1 hnew
        exact ⟨c'', st', j1, j2, j3, j4, fun h => (jq h).trans (hlg h)⟩
      | pair htc' => exact absurd rfl htc'

/-- an inline table read as a value -/
theorem reads_inline {t : Str} {L : List (List Str × PyVal)} {l : List PyPair} (h : InlText q none t L) (hn : Nest L l) : ReadsAs q (123 :: t) (.dict l) := by
  intro n b tail e a lg hlen hb ht
  obtain ⟨n, rfl⟩ := succ_of_lt hlen
  obtain ⟨c, st, g1, g2, g3, g4, gq⟩ := inlineParse_reads _ (Nat.le_refl _) h (by simp) n (b ++ tail) (Cont.empty true) [] [123] a lg
    (by simp at hlen; omega) DotBody.empty (nest_apart hn)
  refine ⟨.inline c {} false, st, ?_, ?_, rfl, g3, .inl ⟨rfl, g2⟩, gq⟩
  · rw [parseValue]
    have hne : t ++ (b ++ tail) ≠ [] := by
      have := h.mem
      intro h0
      rw [(List.append_eq_nil_iff.1 h0).1] at this; cases this
    rw [mark_bind, getSt_bind, List.cons_append, St.cur_cons, if_neg (by omega), if_neg (by omega), if_neg (by omega),
      if_neg (by omega), if_neg (by omega), if_pos rfl, stepE_bind_cons' _ _ _ _ _ _ hne, List.nil_append, P.bind_def, g1]
    rfl
  · exact means_dict rfl (g4.toDotIdx.keys hn) (g4.toDotIdx.means hn)

end Tomlkit
