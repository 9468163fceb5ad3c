import Verif.Proofs.FlatOps
import Verif.Proofs.ParsedLine
import Verif.Proofs.StringInv
/-!
# Reading an inline table, whatever is known of its values
-/
namespace Tomlkit
open _root_.Spec Tomlkit.Spec

/-- a date, a time or both -/
def Item.isDated : Item → Bool
  | .date .. => true | .time .. => true | .datetime .. => true
  | _ => false

theorem isDated_setTrivia (v : Item) (t : Trivia) : (v.setTrivia t).isDated = v.isDated := by
  cases v <;> rfl

/-- a value that begins with no digit has no white space of its own -/
theorem nodigit_cws {n : Nat} {st : St} {i : Item} {s : St} (hc : isDigit st.cur = false)
    (h : parseValue n st = .ok i s) : i.trivia.commentWs = [] := by
  have hstr : ∀ (d : StrType) (st : St), restoring (parseString d) st = .ok i s → i.trivia.commentWs = [] := by
    intro d st h
    obtain ⟨_, _, _, rfl, _⟩ := restoring_isStr h
    rfl
  have hbool : ∀ w v, ∀ st : St, parseBool w v st = .ok i s → i.trivia.commentWs = [] := by
    intro w v st h
    unfold parseBool at h
    by_cases hp : w.isPrefixOf st.rest = true
    · have h := (if_pos hp).symm.trans h
      cases h
      rfl
    · have h := (if_neg hp).symm.trans h
      cases h
  rcases n with _ | n
  · rw [parseValue] at h; cases h
  rw [parseValue, mark_bind, getSt_bind] at h
  revert h
  have hc : isDigit (St.mk st.rest [] st.aot st.loss).cur = false := hc
  generalize St.mk st.rest [] st.aot st.loss = S at hc
  intro h
  by_cases c1 : S.cur = 34
  · rw [if_pos c1] at h; exact hstr _ _ h
  rw [if_neg c1] at h
  by_cases c2 : S.cur = 39
  · rw [if_pos c2] at h; exact hstr _ _ h
  rw [if_neg c2] at h
  by_cases c3 : S.cur = 116
  · rw [if_pos c3] at h; exact hbool _ _ _ h
  rw [if_neg c3] at h
  by_cases c4 : S.cur = 102
  · rw [if_pos c4] at h; exact hbool _ _ _ h
  rw [if_neg c4] at h
  by_cases c5 : S.cur = 91
  · rw [if_pos c5] at h
    obtain ⟨_, _, _, h⟩ := bind_ok h
    obtain ⟨_, _, _, h⟩ := bind_ok h
    cases h
    rfl
  rw [if_neg c5] at h
  by_cases c6 : S.cur = 123
  · rw [if_pos c6] at h
    obtain ⟨_, _, _, h⟩ := bind_ok h
    obtain ⟨_, _, _, h⟩ := bind_ok h
    cases h
    rfl
  rw [if_neg c6] at h
  by_cases c7 : startsSpecialNumber S.rest = true
  · rw [if_pos c7] at h
    obtain ⟨_, _, _, h⟩ := bind_ok h
    obtain ⟨raw, s2, _, h⟩ := bind_ok h
    rcases hp : parseNumber raw {} with _ | j <;> rw [hp] at h <;> cases h
    rw [(parseNumber_text hp).2.1]
  rw [if_neg c7, if_neg (by rw [hc]; decide)] at h
  cases h

/-- only dates and times have white space of their own -/
theorem parseValue_cws {n : Nat} {st : St} {i : Item} {s : St} (h : parseValue n st = .ok i s)
    (hd : i.isDated = false) : i.trivia.commentWs = [] := by
  by_cases hc : isDigit st.cur = true
  · rcases st with ⟨X, e, a, k⟩
    obtain ⟨r, hr⟩ := cur_pos hc (by decide)
    simp only at hr
    generalize (St.mk X e a k).cur = c at hc hr
    subst hr
    have hd' : 48 ≤ c ∧ c ≤ 57 := by simpa [isDigit] using hc
    rcases n with _ | n
    · rw [parseValue] at h; cases h
    have h0 := parseValue_at_digit n (r := r) (tail := []) hd' e a k
    rw [List.append_nil] at h0
    rw [h0, parseDigits_tail, skip_bind, extract_bind] at h
    dsimp only at h
    unfold digitsTail at h
    dsimp only at h
    generalize ([] ++ (c :: r).takeWhile fun c => !isValueEnd c) = raw at h
    have hnum : ∀ st, (match parseNumber raw {} with | some i => (pure i : P Item) | none => fail .invalidNumber) st = .ok i s →
        i.trivia.commentWs = [] := by
      intro st h
      rcases hp : parseNumber raw {} with _ | j <;> rw [hp] at h <;> cases h
      rw [(parseNumber_text hp).2.1]
    have hdate : ∀ v st, dateRest raw v st = .ok i s → i.isDated = true := by
      rintro v ⟨Y, e, a, k⟩ h
      rw [dateRest_red (T := Y.takeWhile fun c => !isDateEnd c) (ws' := (Y.takeWhile fun c => !isDateEnd c).drop (rstrip (Y.takeWhile fun c => !isDateEnd c)).length)
        (by rw [rstrip_split]) (by rw [rstrip_split])] at h
      split at h
      · rcases v with d | d | d <;> cases h <;> rfl
      · generalize parseRfc3339 _ = p at h
        rcases p with er | (d | d | d)
        · cases er <;> cases h
        all_goals first | (cases h; done) | (cases h; rfl)
    rcases hm : matchLoose raw with _ | ⟨_ | _, _ | _⟩ <;> rw [hm] at h <;> dsimp only at h
    · exact hnum _ h
    · exact hnum _ h
    · rcases hp : parseRfc3339 raw with er | (d | d | d) <;> rw [hp] at h
      · cases er <;> cases h
      all_goals first | (cases h; done) | (cases h; cases hd)
    · rcases hp : parseRfc3339 raw with er | (d | d | d) <;> rw [hp] at h
      · cases er <;> cases h
      all_goals first | (cases h; done) | skip
      · rw [hdate (.datetime d) _ h] at hd; cases hd
      · rw [hdate (.date d) _ h] at hd; cases hd
    · rcases hp : parseRfc3339 raw with er | (d | d | d) <;> rw [hp] at h
      · cases er <;> cases h
      all_goals first | (cases h; done) | (cases h; cases hd)
  · exact nodigit_cws (by simpa using hc) h

/-- The text of an inline table after the opening brace, or after a comma (`b`): values with spaces between them. -/
inductive ILine : Bool → Str → List Known → Prop
  | close : ILine false [125] []
  | sp {b : Bool} {c : Chr} {t : Str} {l : List Known} (hc : isSpaces c = true) (h : ILine b t l) : ILine b (c :: t) l
  | last {b : Bool} {K k sp txt s : Str} {Q : Item → Prop} (hK : KeyReads K k) (hs : Spaces sp) (hr : ReadsTo True txt Q)
      (hQ : ∀ i, Q i → i.isDated = false) (hb : Spaces s) : ILine b (K ++ 61 :: (sp ++ (txt ++ (s ++ [125])))) [⟨k, Q⟩]
  | more {b : Bool} {K k sp txt t : Str} {Q : Item → Prop} {l : List Known} (hK : KeyReads K k) (hs : Spaces sp) (hr : ReadsTo True txt Q)
      (hQ : ∀ i, Q i → i.isDated = false) (h : ILine true t l) (hk : k ∉ l.map Known.key) :
      ILine b (K ++ 61 :: (sp ++ (txt ++ 44 :: t))) (⟨k, Q⟩ :: l)

theorem KeyReads.noSpace {K k : Str} (hK : KeyReads K k) (X : Str) : ∀ c r, K ++ X = c :: r → isSpaces c = false := by
  obtain ⟨⟨d, r, rfl, hd, _⟩, _⟩ := hK
  intro c r' h
  cases h
  rcases hc : isSpaces d with _ | _
  · rfl
  · rw [spaces_not_cr hc] at hd; cases hd

theorem ILine.drop1 {b : Bool} {c : Chr} {t : Str} {l : List Known} (hc : isSpaces c = true) (h : ILine b (c :: t) l) : ILine b t l := by
  generalize hx : c :: t = x at h
  cases h with
  | close => cases hx; cases hc
  | sp _ h => cases hx; exact h
  | last hK => rw [hK.noSpace _ _ _ hx.symm] at hc; cases hc
  | more hK => rw [hK.noSpace _ _ _ hx.symm] at hc; cases hc

theorem ILine.dropSp {b : Bool} {t : Str} {l : List Known} (h : ILine b t l) : ILine b (t.dropWhile isSpaces) l := by
  induction t with
  | nil => exact h
  | cons c t ih =>
    rw [List.dropWhile_cons]
    split
    · rename_i hc
      exact ih (h.drop1 hc)
    · exact h

theorem ILine.mem {b : Bool} {t : Str} {l : List Known} (h : ILine b t l) : 125 ∈ t := by
  induction h with
  | close => simp
  | sp _ _ ih => exact List.mem_cons_of_mem _ ih
  | last => simp
  | more _ _ _ _ _ _ ih =>
    exact List.mem_append_right _ (List.mem_cons_of_mem _ (List.mem_append_right _ (List.mem_append_right _ (List.mem_cons_of_mem _ ih))))

/-- what has been read, whatever the comments -/
def IBody (c : Cont) (l : List Known) : Prop := ∃ cs, FBody c l cs

theorem addWs_fbody {c : Cont} {l : List Known} (h : IBody c l) (raw : Str) (st : St) :
    ∃ c', addWs c raw st = .ok c' st ∧ IBody c' l := by
  obtain ⟨cs, h⟩ := h
  unfold addWs
  split
  · exact ⟨c, rfl, cs, h⟩
  · rw [append_none_plain rfl]
    exact ⟨_, rfl, _, h.more (v := .ws raw false) rfl⟩

theorem iline_close (n : Nat) {tc : Option Bool} (htc : tc ≠ some true) {c : Cont} {l : List Known} (h : IBody c l)
    {t tail : Str} (ht : t.dropWhile isSpaces = 125 :: tail) (e a lg) :
    ∃ c' st, inlineParse (n + 1) tc c ⟨t, e, a, lg⟩ = .ok c' st ∧ st.rest = tail ∧ st.aot = a ∧ IBody c' l ∧ st.loss = lg := by
  obtain ⟨c', h1, h2⟩ := addWs_fbody h (t.takeWhile isSpaces) ⟨t.dropWhile isSpaces, e ++ t.takeWhile isSpaces, a, lg⟩
  rw [inline_step n tc t e a lg h1, getSt_bind, ht, St.cur_cons]
  have : (tc != some true && decide ((125 : Nat) = 125)) = true := by simp [htc]
  rw [if_pos this]
  exact ⟨c', _, rfl, rfl, rfl, h2, rfl⟩

/-- a pair and what follows it -/
theorem iline_pair (n : Nat) {tc : Option Bool} (htc : tc ≠ some false) {c : Cont} {l : List Known} (h : IBody c l)
    {t K k sp X : Str} {Q : Item → Prop} (hK : KeyReads K k) (hs : Spaces sp) (hX : ∀ c r, X = c :: r → isKvSep c = false)
    (ht : t.dropWhile isSpaces = K ++ 61 :: (sp ++ X)) (e a lg) {i : Item} {st : St}
    (hv : parseValue n ⟨X, 61 :: sp, a, lg⟩ = .ok i st) (hw : ∀ t, Q (i.setTrivia t)) (hni : i.isTableLike = false) (hnw : i.isWhitespace = false)
    (hcw : i.trivia.commentWs = []) (hk : k ∉ l.map Known.key)
    (h44 : (st.rest.dropWhile isSpaces).head? = some 44 → st.rest.takeWhile isSpaces = []) :
    ∃ c' e', IBody c' (l ++ [⟨k, Q⟩]) ∧ inlineParse (n + 2) tc c ⟨t, e, a, lg⟩ =
      (if (St.mk (st.rest.dropWhile isSpaces) e' st.aot st.loss).cur = 44 then
          (stepE >>= fun _ => inlineParse (n + 1) (some true) c') ⟨st.rest.dropWhile isSpaces, e', st.aot, st.loss⟩
        else inlineParse (n + 1) (some false) c' ⟨st.rest.dropWhile isSpaces, e', st.aot, st.loss⟩) := by
  obtain ⟨c1, h1, h2⟩ := addWs_fbody h (t.takeWhile isSpaces) ⟨t.dropWhile isSpaces, e ++ t.takeWhile isSpaces, a, lg⟩
  obtain ⟨sk, k1, k2, k3, k4, k5⟩ := kv_head hK Spaces.nil hs hX n (e ++ t.takeWhile isSpaces) a lg
  have k6 := k5 false
  rw [List.nil_append, P.bind_def, hv] at k6
  obtain ⟨cs, h2⟩ := h2
  obtain ⟨c2, a1, a2⟩ := h2.pair (k := sk) (i := i.setTrivia { i.trivia with indent := [], trail := [] }) (Q := Q)
    (by rw [isTableLike_setTrivia]; exact hni) (hw _) (by rw [k1]; exact hk) true
  rw [k1] at a2
  have a2 : IBody c2 (l ++ [⟨k, Q⟩]) := ⟨_, a2⟩
  rcases st with ⟨r1, e1, al, l1⟩
  obtain ⟨c3, b1, b2⟩ := addWs_fbody a2 (r1.takeWhile isSpaces) ⟨r1.dropWhile isSpaces, e1 ++ r1.takeWhile isSpaces, al, l1⟩
  obtain ⟨⟨d, r, hd, _, d1, d2, _⟩, _⟩ := hK
  have hcur : ∀ e' l', (St.mk (t.dropWhile isSpaces) e' a l').cur = d := by intro e' l'; rw [ht, hd]; rfl
  have c1f : (tc != some true && decide (d = 125)) = false := by simp [d1]
  have c2f : (decide (tc = some false) || (decide (tc = none) && decide (d = 44))) = false := by simp [htc, d2]
  have c3f : (decide (tc = some true) && (decide (d = 125) || decide (d = 44))) = false := by simp [d1, d2]
  rw [inline_step (n + 1) tc t e a lg h1, getSt_bind]
  simp only [hcur, c1f, c2f, c3f, Bool.false_eq_true, if_false]
  rw [ht, P.bind_def, k6]
  simp only [Bool.false_eq_true, if_false, P.pure_def]
  rw [P.bind_def, a1]
  have hn0 : ∀ st, note false .reordered st = .ok () st := fun _ => rfl
  have hlift : lift (Except.ok (c2, false)) = (fun st => Res.ok (c2, false) st : P (Cont × Bool)) := rfl
  rw [hlift]
  dsimp only
  rw [P.bind_def, hn0]
  simp only [getSt_bind, skip_bind]
  rw [P.bind_def, b1]
  simp only [getSt_bind]
  have hbb : (!(Item.setTrivia { i.trivia with indent := [], trail := [] } i).trivia.commentWs.isEmpty) = false := by
    rw [setTrivia_trivia hnw]
    dsimp only
    rw [hcw]; rfl
  rw [hbb]
  have hn : ∀ (y : Loss) st, note false y st = .ok () st := fun _ _ => rfl
  rw [P.bind_def, hn]
  dsimp only
  refine ⟨c3, e1 ++ r1.takeWhile isSpaces, b2, ?_⟩
  by_cases hc44 : (St.mk (r1.dropWhile isSpaces) (e1 ++ r1.takeWhile isSpaces) al l1).cur = 44
  · have hraw : r1.takeWhile isSpaces = [] := by
      apply h44
      obtain ⟨q, hq⟩ := cur_pos (s := St.mk (r1.dropWhile isSpaces) (e1 ++ r1.takeWhile isSpaces) al l1) (p := (· == 44)) (by rw [hc44]; rfl) rfl
      rw [hc44] at hq
      simp only at hq
      show (r1.dropWhile isSpaces).head? = _
      rw [hq]; rfl
    rw [if_pos hc44, hraw]
    show (note false _ >>= _) _ = _
    rw [P.bind_def, hn]
    exact (if_pos (by rw [hraw] at hc44; exact hc44)).symm
  · rw [if_neg hc44]
    exact (if_neg hc44).symm

theorem nonspace_head {t x : Str} (hx : t.dropWhile isSpaces = x) : ∀ c r, x = c :: r → isSpaces c = false := by
  intro c r h0
  have := List.head?_dropWhile_not isSpaces t
  rw [hx, h0] at this
  simpa using this

theorem spaces_then {s : Str} (hs : Spaces s) {c : Chr} (hc : isSpaces c = false) (r : Str) :
    (s ++ c :: r).takeWhile isSpaces = s ∧ (s ++ c :: r).dropWhile isSpaces = c :: r := by
  rw [List.takeWhile_append_of_pos hs, List.dropWhile_append_of_pos hs, List.takeWhile_cons_of_neg (by simp [hc]), List.dropWhile_cons_of_neg (by simp [hc]),
    List.append_nil]
  exact ⟨rfl, rfl⟩

/-- The text of an inline table is read, nothing is lost. -/
theorem iline_reads : ∀ (m : Nat) {t : Str} {b : Bool} {l : List Known}, t.length ≤ m → ILine b t l →
    ∀ (n : Nat) (tail : Str) (c : Cont) (l0 : List Known) (e : Str) (a : List Key) (lg : List Loss), 3 * t.length ≤ n →
    IBody c l0 → (∀ k ∈ l.map Known.key, k ∉ l0.map Known.key) →
    ∃ c' st, inlineParse n (if b then some true else none) c ⟨t ++ tail, e, a, lg⟩ = .ok c' st ∧ st.rest = tail ∧ st.aot = a ∧ IBody c' (l0 ++ l) ∧
      st.loss = lg := by
  intro m
  induction m with
  | zero =>
    intro t b l hm h
    have := h.mem
    rcases t with _ | _
    · cases this
    · simp at hm
  | succ m ih =>
    intro t b l hm h n tail c l0 e a lg hn hc hnew
    have hpos : 1 ≤ t.length := by
      have := h.mem
      rcases t with _ | _
      · cases this
      · simp
    obtain ⟨n, rfl⟩ : ∃ k, n = k + 1 := ⟨n - 1, by omega⟩
    obtain ⟨s1, s2, s3⟩ := span_stop (tail := tail) (p := isSpaces) h.mem rfl
    have hd := h.dropSp
    have hlen : (t.takeWhile isSpaces).length + (t.dropWhile isSpaces).length = t.length := by
      rw [← List.length_append, List.takeWhile_append_dropWhile]
    generalize hx : t.dropWhile isSpaces = x at hd hlen s2 s3
    have hns := nonspace_head hx
    cases hd with
    | close =>
      obtain ⟨c', st, g1, g2, g3, g4, gq⟩ := iline_close n (tc := none) (by simp) hc (t := t ++ tail) (tail := tail) (by rw [s2]; rfl) e a lg
      exact ⟨c', st, g1, g2, g3, by rw [List.append_nil]; exact g4, gq⟩
    | sp hc' _ => rw [hns _ _ rfl] at hc'; cases hc'
    | @last _ K k sp txt s Q hK hs hr hQ hb =>
      have hKl : K.length ≥ 1 := by obtain ⟨⟨d, r, rfl, _⟩, _⟩ := hK; simp
      simp only [List.length_append, List.length_cons] at hlen
      obtain ⟨n, rfl⟩ : ∃ k, n = k + 1 := ⟨n - 1, by omega⟩
      obtain ⟨b1, b2, rfl, hb1, hb2, hb3⟩ := spaces_split hb
      have hend : DateEnds (b2 ++ 125 :: tail) := by
        rcases hb3 with rfl | ⟨r, rfl⟩
        · exact .inr ⟨125, tail, rfl, rfl⟩
        · exact .inr ⟨9, _, rfl, rfl⟩
      obtain ⟨i, st, g1, g2, g3, g3', g4, g5, gq⟩ := hr n b1 (b2 ++ 125 :: tail) (61 :: sp) a lg (by omega) hb1 hend
      have hnd : i.isDated = false := by rw [← isDated_setTrivia i {}]; exact hQ _ (g2 _)
      have hcw := parseValue_cws g1 hnd
      have hrest : st.rest = (b1 ++ b2) ++ 125 :: tail := by
        rcases g5 with ⟨_, h0⟩ | ⟨h1, h0⟩
        · rw [h0, List.append_assoc]
        · rw [h0, ← h1, hcw]; rfl
      obtain ⟨r1, r2⟩ := spaces_then hb (c := 125) rfl tail
      have e1 : (K ++ 61 :: (sp ++ (txt ++ ((b1 ++ b2) ++ [125])))) ++ tail = K ++ 61 :: (sp ++ (txt ++ (b1 ++ (b2 ++ 125 :: tail)))) := by simp
      rw [e1] at s2
      have hk : k ∉ l0.map Known.key := hnew k (by simp)
      obtain ⟨c', e', k1, k2⟩ := iline_pair n (tc := if b then some true else none) (by cases b <;> simp) hc hK hs (hr.noKvSep _) s2 e a lg g1 g2 g3 g3' hcw hk
        (by rw [hrest, r2]; intro h; cases h)
      rw [k2, hrest, r2, if_neg (by intro h0; cases h0), g4, gq trivial]
      exact iline_close n (tc := some false) (by simp) k1 (t := 125 :: tail) (tail := tail) rfl e' a lg
    | @more _ K k sp txt t' Q l' hK hs hr hQ h' hk' =>
      have hKl : K.length ≥ 1 := by obtain ⟨⟨d, r, rfl, _⟩, _⟩ := hK; simp
      simp only [List.length_append, List.length_cons] at hlen
      obtain ⟨n, rfl⟩ : ∃ k, n = k + 1 := ⟨n - 1, by omega⟩
      have hend : DateEnds (44 :: t' ++ tail) := .inr ⟨44, t' ++ tail, rfl, rfl⟩
      obtain ⟨i, st, g1, g2, g3, g3', g4, g5, gq⟩ := hr n [] (44 :: t' ++ tail) (61 :: sp) a lg (by omega) Blank.nil hend
      have hnd : i.isDated = false := by rw [← isDated_setTrivia i {}]; exact hQ _ (g2 _)
      have hcw := parseValue_cws g1 hnd
      have hrest : st.rest = 44 :: (t' ++ tail) := by
        rcases g5 with ⟨_, h0⟩ | ⟨h1, h0⟩ <;> exact h0
      have e1 : (K ++ 61 :: (sp ++ (txt ++ 44 :: t'))) ++ tail = K ++ 61 :: (sp ++ (txt ++ ([] ++ (44 :: t' ++ tail)))) := by simp
      rw [e1] at s2
      have hk : k ∉ l0.map Known.key := hnew k (by simp)
      obtain ⟨c', e', k1, k2⟩ := iline_pair n (tc := if b then some true else none) (by cases b <;> simp) hc hK hs (hr.noKvSep _) s2 e a lg g1 g2 g3 g3' hcw hk
        (by rw [hrest]; intro _; rfl)
      have hdrop : st.rest.dropWhile isSpaces = 44 :: (t' ++ tail) := by rw [hrest]; rfl
      rw [k2, hdrop, if_pos (show (St.mk (44 :: (t' ++ tail)) e' st.aot st.loss).cur = 44 from rfl)]
      have hne : t' ++ tail ≠ [] := by
        have := h'.mem
        intro h0
        rw [(List.append_eq_nil_iff.1 h0).1] at this; cases this
      rw [stepE_bind_cons' _ _ _ _ _ _ hne, g4, gq trivial]
      obtain ⟨c'', st', j1, j2, j3, j4, jq⟩ := ih (by omega) h' (n + 1) tail c' (l0 ++ [⟨k, Q⟩]) (e' ++ [44]) a lg
        (by omega) k1 (by
          intro k2 hk2 hk3
          rw [List.map_append, List.mem_append] at hk3
          rcases hk3 with hk3 | hk3
          · exact hnew k2 (List.mem_cons_of_mem _ hk2) hk3
          · simp only [List.map_cons, List.map_nil, List.mem_singleton] at hk3
            rw [hk3] at hk2
            exact hk' hk2)
      refine ⟨c'', st', ?_, j2, j3, ?_, jq⟩
      · exact j1
      · rw [List.append_assoc] at j4; exact j4

end Tomlkit
