import Verif.Props.Dates
import Verif.Props.Strings
import Verif.Proofs.Numbers
import Verif.Proofs.Means
/-!
# Texts that the value parser reads as a given Python value
-/
namespace Tomlkit
open _root_.Spec Tomlkit.Spec

/-- only blanks -/
def Blank (b : Str) : Prop := ∀ c ∈ b, c = 32

theorem Blank.nil : Blank [] := fun c hc => by cases hc

theorem blank_valueEnds {b tail : Str} (hb : Blank b) (h : DateEnds tail) : ValueEnds (b ++ tail) := by
  rcases b with _ | ⟨c, r⟩
  · exact h.valueEnds
  · have := hb c (List.mem_cons_self ..)
    subst this
    exact .inr ⟨_, _, rfl, rfl⟩

variable {q : Prop}

/-- Followed by blanks and the end of a value, the text is read as a value that means `w`. After a date the blanks are
read too. If `q` is given, nothing is lost. -/
def ReadsAs (q : Prop) (txt : Str) (w : PyVal) : Prop :=
  ∀ (n : Nat) (b tail e : Str) (a : List Key) (l : List Loss), txt.length < n → Blank b → DateEnds tail →
    ∃ i st, parseValue n ⟨txt ++ (b ++ tail), e, a, l⟩ = .ok i st ∧ Means w i ∧ i.isTableLike = false ∧ st.aot = a ∧
      ((i.trivia.commentWs = [] ∧ st.rest = b ++ tail) ∨ (i.trivia.commentWs = b ∧ st.rest = tail)) ∧ (q → st.loss = l)

theorem succ_of_lt {m n : Nat} (h : m < n) : ∃ k, n = k + 1 := ⟨n - 1, by omega⟩

/-! ## Scalars -/

theorem reads_int (i : Int) : ReadsAs q (intText i) (.int i) := by
  intro n b tail e a l hn hb ht
  obtain ⟨n, rfl⟩ := succ_of_lt hn
  refine ⟨_, _, int_value i n _ e a l (blank_valueEnds hb ht), ?_, rfl, rfl, .inl ⟨rfl, rfl⟩, fun _ => rfl⟩
  exact .of ⟨_, _, rfl⟩

theorem head_ne_34 {b tail : Str} (hb : Blank b) (ht : DateEnds tail) : (b ++ tail).head? ≠ some 34 := by
  rcases blank_valueEnds hb ht with h | ⟨d, r, h, hd⟩ <;> rw [h]
  · simp
  · simp only [List.head?_cons]
    intro hh
    cases hh
    cases hd

theorem reads_str (s : Str) : ReadsAs q (stringItem s).asString (.str s) := by
  intro n b tail e a l hn hb ht
  obtain ⟨n, rfl⟩ := succ_of_lt hn
  have htx : (stringItem s).asString = 34 :: (escEach slbEsc s ++ [34]) := by
    simp [stringItem, escapeString_slb, Item.asString, StrType.value]
  rw [htx]
  obtain ⟨e', h⟩ := parseString_slb s (b ++ tail) [] a l (head_ne_34 hb ht)
  have e1 : 34 :: (escEach slbEsc s ++ [34]) ++ (b ++ tail) = 34 :: (escEach slbEsc s ++ 34 :: (b ++ tail)) := by simp
  rw [e1]
  refine ⟨_, _, by rw [parseValue_dq, restoring_ok h], ?_, rfl, rfl, .inl ⟨rfl, rfl⟩, fun _ => rfl⟩
  exact .of ⟨_, _, _, rfl⟩

theorem reads_bool (v : Bool) : ReadsAs q (if v then t!"true" else t!"false") (.bool v) := by
  intro n b tail e a l hn hb ht
  obtain ⟨n, rfl⟩ := succ_of_lt hn
  cases v
  · refine ⟨.bool false {}, ⟨b ++ tail, [102, 97, 108, 115, 101], a, l⟩, ?_, .of ⟨_, rfl⟩, rfl, rfl, .inl ⟨rfl, rfl⟩, fun _ => rfl⟩
    rw [parseValue]
    rfl
  · refine ⟨.bool true {}, ⟨b ++ tail, [116, 114, 117, 101], a, l⟩, ?_, .of ⟨_, rfl⟩, rfl, rfl, .inl ⟨rfl, rfl⟩, fun _ => rfl⟩
    rw [parseValue]
    rfl

theorem blank_dateSkip {b tail : Str} (hb : Blank b) (ht : DateEnds tail) :
    (b ++ tail).takeWhile (fun c => !isDateEnd c) = b ∧ (b ++ tail).dropWhile (fun c => !isDateEnd c) = tail := by
  induction b with
  | nil => exact ht.skip
  | cons c r ih =>
    have hc := hb c (List.mem_cons_self ..)
    subst hc
    obtain ⟨h1, h2⟩ := ih fun x hx => hb x (List.mem_cons_of_mem _ hx)
    have : isDateEnd 32 = false := rfl
    simp [this, h1, h2]

theorem blank_rstrip {b : Str} (hb : Blank b) : rstrip b = [] := by
  unfold rstrip
  have : b.reverse.dropWhile isUniSpace = [] := by
    have hr : ∀ c ∈ b.reverse, c = 32 := fun c hc => hb c (List.mem_reverse.1 hc)
    generalize b.reverse = q at hr
    induction q with
    | nil => rfl
    | cons c q ih =>
      have hc := hr c (List.mem_cons_self ..)
      subst hc
      exact ih fun x hx => hr x (List.mem_cons_of_mem _ hx)
  rw [this]
  rfl

theorem reads_date {d : PDate} (h : ValidDate d.year d.month d.day) : ReadsAs q (isoDate d) (.date d) := by
  intro n b tail e a l hn hb ht
  obtain ⟨n, rfl⟩ := succ_of_lt hn
  have htext := isoDate_text h
  obtain ⟨c, r, hcr, hc⟩ := dateText_head htext
  have hparse := parseValue_at_digit n (r := r) (tail := b ++ tail) hc e a l
  rw [← hcr] at hparse
  rw [hparse]
  obtain ⟨h1, h2⟩ := skip_value (dateText_notEnd htext) (blank_valueEnds hb ht)
  have hrfc : parseRfc3339 (isoDate d) = .ok (.date d) :=
    (C26_date_text _ d).2 ⟨isoDate d, [], by simp, .inl rfl, htext, h⟩
  have hloose : matchLoose (isoDate d) = some (true, false) := by
    have := looseDate_of (r := []) htext
    rw [List.append_nil] at this
    unfold matchLoose
    rw [this]
    rfl
  obtain ⟨k1, k2⟩ := blank_dateSkip hb ht
  refine ⟨.date d { commentWs := b } (isoDate d), ⟨tail, b, a, l⟩, ?_, .of ⟨_, _, rfl⟩, rfl, rfl, .inr ⟨rfl, rfl⟩, fun _ => rfl⟩
  unfold parseDigits
  simp only [skip_bind, extract_bind, h1, h2, List.nil_append, hloose, hrfc, mark_bind, k1, k2, blank_rstrip hb]
  rfl

theorem reads_time {t : PTime} (h : ValidTime t.hour t.minute t.second t.micro) : ReadsAs q (isoTime t) (.time t) := by
  intro n b tail e a l hn hb ht
  obtain ⟨n, rfl⟩ := succ_of_lt hn
  exact ⟨_, _, time_value h n _ e a l (blank_valueEnds hb ht), .of ⟨_, _, rfl⟩, rfl, rfl, .inl ⟨rfl, rfl⟩, fun _ => rfl⟩

theorem reads_datetime {v : PDateTime} (hd : ValidDate v.date.year v.date.month v.date.day)
    (ht : ValidTime v.time.hour v.time.minute v.time.second v.time.micro) (hz : ∀ o, v.tz = some o → ValidOffset o) :
    ReadsAs q (replaceUtc (isoDateTime v)) (.datetime v) := by
  intro n b tail e a l hn hb htl
  obtain ⟨n, rfl⟩ := succ_of_lt hn
  exact ⟨_, _, datetime_value hd ht hz n _ e a l (blank_valueEnds hb htl), .of ⟨_, _, rfl⟩, rfl, rfl, .inl ⟨rfl, rfl⟩, fun _ => rfl⟩

/-! ## What such a text begins with -/

/-- characters that begin no value -/
def NoStart (c : Chr) : Prop := isWs c = true ∨ c = 35 ∨ c = 44 ∨ c = 93 ∨ c = 61 ∨ c = 125 ∨ c = 0

theorem special_false' {c : Chr} (r : Str) (h : NoStart c) : startsSpecialNumber (c :: r) = false := by
  unfold startsSpecialNumber
  have h1 : isValueEnd c = true ∨ c = 61 ∨ c = 0 := by
    rcases h with h | h
    · left
      simp only [isWs, isSpaces, isNl, Bool.or_eq_true, beq_iff_eq] at h
      simp only [isValueEnd, Bool.or_eq_true, beq_iff_eq]; omega
    · simp only [isValueEnd, Bool.or_eq_true, beq_iff_eq]; omega
  have hc : c ≠ 43 ∧ c ≠ 45 := by
    rcases h with h | h
    · simp only [isWs, isSpaces, isNl, Bool.or_eq_true, beq_iff_eq] at h; omega
    · omega
  rcases h1 with h1 | rfl | rfl
  · simp [h1, hc]
  · cases h2 : ((61 :: r).take 4).takeWhile fun c => !isValueEnd c && c != 0 with
    | nil => simp
    | cons d q =>
      have : d = 61 := by
        simp at h2
        rw [List.takeWhile_cons] at h2
        split at h2
        · cases h2; rfl
        · cases h2
      subst this
      simp
  · simp

theorem parseValue_nostart (n : Nat) {c : Chr} (r e a l) (h : NoStart c) :
    parseValue (n + 1) ⟨c :: r, e, a, l⟩ = .err (.parse .unexpectedChar (r.length + 1)) ⟨c :: r, [], a, l⟩ := by
  rw [parseValue]
  have hs := special_false' r h
  have hc : c ≠ 34 ∧ c ≠ 39 ∧ c ≠ 116 ∧ c ≠ 102 ∧ c ≠ 91 ∧ c ≠ 123 ∧ isDigit c = false := by
    rcases h with h | h
    · simp only [isWs, isSpaces, isNl, Bool.or_eq_true, beq_iff_eq] at h
      refine ⟨by omega, by omega, by omega, by omega, by omega, by omega, ?_⟩
      simp [isDigit]; omega
    · refine ⟨by omega, by omega, by omega, by omega, by omega, by omega, ?_⟩
      simp [isDigit]; omega
  simp [hc, hs]

theorem ReadsAs.head {txt : Str} {w : PyVal} (h : ReadsAs q txt w) : ∃ c r, txt = c :: r ∧ ¬ NoStart c := by
  obtain ⟨i, st, h1, _⟩ := h (txt.length + 1) [] [93] [] [] [] (by omega) Blank.nil (.inr ⟨93, [], rfl, rfl⟩)
  rcases txt with _ | ⟨c, r⟩
  · rw [List.nil_append, List.nil_append, parseValue_nostart _ _ _ _ _ (by unfold NoStart; omega)] at h1
    cases h1
  · refine ⟨c, r, rfl, fun hc => ?_⟩
    rw [List.cons_append, parseValue_nostart _ _ _ _ _ hc] at h1
    cases h1

/-! ## Arrays -/

/-- The text of an array after the opening bracket (or after a part of it): white space, comments, elements and commas
in turn, then the closing bracket. The flag tells that an element came last. -/
inductive ArrText (q : Prop) : Bool → Str → List PyVal → Prop
  | close (p : Bool) : ArrText q p [93] []
  | ws (p : Bool) {c : Chr} {t : Str} {l : List PyVal} (hc : isWs c = true) (h : ArrText q p t l) : ArrText q p (c :: t) l
  | cmt (p : Bool) {s : Str} {c : Chr} {t : Str} {l : List PyVal} (hs : ∀ x ∈ s, isCommentChar x = true) (hc : isNl c = true)
      (h : ArrText q p (c :: t) l) : ArrText q p (35 :: (s ++ c :: t)) l
  | comma {t : Str} {l : List PyVal} (h : ArrText q false t l) : ArrText q true (44 :: t) l
  | elem {txt b t : Str} {w : PyVal} {l : List PyVal} (hr : ReadsAs q txt w) (hb : Blank b) (hq : q → b = []) (ht : DateEnds t)
      (h : ArrText q true (b ++ t) l) : ArrText q false (txt ++ (b ++ t)) (w :: l)

theorem ArrText.drop1 {p : Bool} {c : Chr} {t : Str} {l : List PyVal} (hc : isWs c = true) (h : ArrText q p (c :: t) l) :
    ArrText q p t l := by
  generalize hx : c :: t = x at h
  have hno : NoStart c := Or.inl hc
  cases h with
  | close => cases hx; cases hc
  | ws _ _ h => cases hx; exact h
  | cmt => cases hx; cases hc
  | comma => cases hx; cases hc
  | elem hr =>
    obtain ⟨d, r, rfl, hd⟩ := hr.head
    cases hx
    exact absurd hno hd

theorem ArrText.dropWs {p : Bool} {t : Str} {l : List PyVal} (h : ArrText q p t l) : ArrText q p (t.dropWhile isWs) l := by
  induction t with
  | nil => exact h
  | cons c t ih =>
    rw [List.dropWhile_cons]
    split
    · rename_i hc
      exact ih (h.drop1 hc)
    · exact h

theorem ArrText.dropBlank {p : Bool} {b t : Str} {l : List PyVal} (hb : Blank b) (h : ArrText q p (b ++ t) l) : ArrText q p t l := by
  induction b with
  | nil => exact h
  | cons c b ih =>
    have hc := hb c (List.mem_cons_self ..)
    exact ih (fun x hx => hb x (List.mem_cons_of_mem _ hx)) (h.drop1 (by rw [hc]; rfl))

theorem ArrText.mem {p : Bool} {t : Str} {l : List PyVal} (h : ArrText q p t l) : 93 ∈ t := by
  induction h with
  | close => simp
  | ws _ _ _ ih => exact List.mem_cons_of_mem _ ih
  | cmt _ _ _ _ ih => exact List.mem_cons_of_mem _ (List.mem_append_right _ ih)
  | comma _ ih => exact List.mem_cons_of_mem _ ih
  | elem _ _ _ _ _ ih => exact List.mem_append_right _ ih

theorem span_stop {p : Chr → Bool} {t tail : Str} {c : Chr} (hm : c ∈ t) (hc : p c = false) :
    (t ++ tail).takeWhile p = t.takeWhile p ∧ (t ++ tail).dropWhile p = t.dropWhile p ++ tail ∧ t.dropWhile p ≠ [] := by
  induction t with
  | nil => cases hm
  | cons d t ih =>
    by_cases hd : p d = true
    · have hm' : c ∈ t := by
        rcases List.mem_cons.1 hm with rfl | h
        · rw [hd] at hc; cases hc
        · exact h
      obtain ⟨h1, h2, h3⟩ := ih hm'
      simp [hd, h1, h2]
      exact by simpa using h3
    · simp [hd]

theorem takeWhile_halt {p : Chr → Bool} {s : Str} (h : ∀ c ∈ s, p c = true) {d : Chr} (hd : p d = false) (tail : Str) :
    (s ++ d :: tail).takeWhile p = s ∧ (s ++ d :: tail).dropWhile p = d :: tail :=
  ⟨takeWhile_append_stop h hd tail, dropWhile_append_stop h hd tail⟩

/-- a comment inside an array -/
theorem comment_in_array {s : Str} {c : Chr} (hs : ∀ x ∈ s, isCommentChar x = true) (hc : isNl c = true) (r e a l) :
    parseCommentTrail false ⟨35 :: (s ++ c :: r), e, a, l⟩ = .ok ([], 35 :: s, []) ⟨c :: r, [], a, l⟩ := by
  have hcc : isCommentChar c = false := by simp [isCommentChar, hc]
  obtain ⟨h1, h2⟩ := takeWhile_halt (p := isCommentChar) hs hcc r
  have h35 : isSpTabCr 35 = false := rfl
  unfold parseCommentTrail
  simp [h35, h1, h2, hc, P.bind_def]

theorem notWs_of_no {c : Chr} (h : ¬ NoStart c) : isWs c = false ∧ c ≠ 35 ∧ c ≠ 44 ∧ c ≠ 93 ∧ c ≠ 61 ∧ c ≠ 125 := by
  unfold NoStart at h
  refine ⟨?_, by omega, by omega, by omega, by omega, by omega⟩
  cases hc : isWs c
  · rfl
  · exact absurd (Or.inl hc) h

theorem arrayLoop_close (n : Nat) (p : Bool) (elems : List Item) (r e a l) :
    ∃ e', arrayLoop (n + 2) p elems ⟨93 :: r, e, a, l⟩ = .ok elems ⟨r, e', a, l⟩ := by
  have hw : isWs 93 = false := rfl
  rw [arrayLoop]
  cases p
  · refine ⟨[93], ?_⟩
    simp [hw, parseValue_nostart n r _ a l (c := 93) (by unfold NoStart; omega), Err.isUnexpectedChar, P.bind_def, note]
  · refine ⟨e ++ [93], ?_⟩
    simp [hw, P.bind_def]

theorem arrayLoop_comma (n : Nat) (elems : List Item) (r e a l) (hr : r ≠ []) :
    arrayLoop (n + 1) true elems ⟨44 :: r, e, a, l⟩ = arrayLoop n false (elems ++ [.ws [44] false]) ⟨r, e ++ [44], a, l⟩ := by
  have hw : isWs 44 = false := rfl
  rw [arrayLoop]
  obtain ⟨d, r, rfl⟩ := List.exists_cons_of_ne_nil hr
  simp [hw]

theorem arrayLoop_value (n : Nat) (elems : List Item) {c : Chr} (r e a l) (hc : ¬ NoStart c) {v : Item} {st : St}
    (h : parseValue n ⟨c :: r, e, a, l⟩ = .ok v st) :
    ∃ lg, arrayLoop (n + 1) false elems ⟨c :: r, e, a, l⟩ = arrayLoop n true (elems ++ [v]) { st with loss := lg } ∧
      (v.trivia.commentWs = [] → lg = st.loss) := by
  obtain ⟨hw, n35, _⟩ := notWs_of_no hc
  rw [arrayLoop]
  cases hv : (!v.trivia.commentWs.isEmpty)
  · refine ⟨st.loss, ?_, fun _ => rfl⟩
    simp [hw, n35, h]
    rw [if_pos]
    simpa using hv
  · refine ⟨st.loss ++ [.dateWs], ?_, fun h0 => by rw [h0] at hv; cases hv⟩
    simp [hw, n35, h]
    rw [if_neg]
    simpa using hv

theorem arrayLoop_comment (n : Nat) (p : Bool) (elems : List Item) {s : Str} {c : Chr} (hs : ∀ x ∈ s, isCommentChar x = true)
    (hc : isNl c = true) (r e a l) :
    arrayLoop (n + 1) p elems ⟨35 :: (s ++ c :: r), e, a, l⟩ =
      arrayLoop n p (elems ++ [.comment ⟨[], [], 35 :: s, []⟩]) ⟨c :: r, [], a, l⟩ := by
  have hw : isWs 35 = false := rfl
  rw [arrayLoop]
  simp [hw]
  rw [P.bind_def, comment_in_array hs hc]

theorem arrayLoop_reads : ∀ (m : Nat) {t : Str} {p : Bool} {l : List PyVal}, t.length ≤ m → ArrText q p t l →
    ∀ (n : Nat) (tail : Str) (elems : List Item) (e : Str) (a : List Key) (lg : List Loss), t.length < n →
    ∃ items st, arrayLoop n p elems ⟨t ++ tail, e, a, lg⟩ = .ok (elems ++ items) st ∧ st.rest = tail ∧ st.aot = a ∧
      MeansAll l (items.filter Item.isData) ∧ (q → st.loss = lg) := by
  intro m
  induction m with
  | zero =>
    intro t p l hm h
    have := h.mem
    rcases t with _ | _
    · cases this
    · simp at hm
  | succ m ih =>
    intro t p l hm h n tail elems e a lg hn
    obtain ⟨n, rfl⟩ := succ_of_lt hn
    obtain ⟨s1, s2, s3⟩ := span_stop (tail := tail) (p := isWs) h.mem rfl
    have hd := h.dropWs
    have hlen : (t.takeWhile isWs).length + (t.dropWhile isWs).length = t.length := by
      rw [← List.length_append, List.takeWhile_append_dropWhile]
    generalize hind : t.takeWhile isWs = ind at *
    by_cases hi : ind = []
    · -- no white space
      clear s1 s2 s3 hd hlen
      cases h with
      | close p =>
        obtain ⟨k, rfl⟩ : ∃ k, n = k + 1 := ⟨n - 1, by simp at hn; omega⟩
        obtain ⟨e', h1⟩ := arrayLoop_close k p elems tail e a lg
        exact ⟨[], _, by rw [List.append_nil]; exact h1, rfl, rfl, by simp [MeansAll], fun _ => rfl⟩
      | ws _ hc _ =>
        rw [List.takeWhile_cons, hc] at hind
        rw [hi] at hind; cases hind
      | @cmt _ s c t' _ hs hc h' =>
        rw [List.cons_append, List.append_assoc, List.cons_append, arrayLoop_comment _ _ _ hs hc]
        have hl : (c :: t').length ≤ m := by simp at hm ⊢; omega
        obtain ⟨items, st, g1, g2, g3, g4, gq⟩ := ih hl h' n tail (elems ++ [.comment ⟨[], [], 35 :: s, []⟩]) [] a lg
          (by simp at hn ⊢; omega)
        refine ⟨_, st, by rw [List.cons_append] at g1; rw [g1, List.append_assoc], g2, g3, ?_, gq⟩
        rw [List.singleton_append, List.filter_cons_of_neg]
        · exact g4
        · exact Bool.false_ne_true
      | @comma t' _ h' =>
        have hne : t' ++ tail ≠ [] := by
          have := h'.mem
          intro h0
          rw [(List.append_eq_nil_iff.1 h0).1] at this; cases this
        rw [List.cons_append, arrayLoop_comma _ _ _ _ _ _ hne]
        obtain ⟨items, st, g1, g2, g3, g4, gq⟩ := ih (by simp at hm; omega) h' n tail (elems ++ [.ws [44] false]) (e ++ [44]) a lg
          (by simp at hn; omega)
        refine ⟨_, st, by rw [g1, List.append_assoc], g2, g3, ?_, gq⟩
        rw [List.singleton_append, List.filter_cons_of_neg]
        · exact g4
        · exact Bool.false_ne_true
      | @elem txt b t' w l' hr hb hqb htl h' =>
        obtain ⟨d, r, hd', hns⟩ := hr.head
        have htne : t' ≠ [] := by
          have := (h'.dropBlank hb).mem
          intro h0; rw [h0] at this; cases this
        have htl' : DateEnds (t' ++ tail) := by
          rcases htl with h0 | ⟨d, r, h0, hd0⟩
          · exact absurd h0 htne
          · exact .inr ⟨d, r ++ tail, by rw [h0]; rfl, hd0⟩
        have hlen2 : txt.length ≥ 1 := by rw [hd']; simp
        have hlt : txt.length < n := by
          have : t'.length ≥ 1 := List.length_pos_iff.2 htne
          simp at hn; omega
        obtain ⟨i, st1, g1, g2, _, g3, g4, gq⟩ := hr n b (t' ++ tail) e a lg hlt hb htl'
        have e1 : txt ++ (b ++ t') ++ tail = txt ++ (b ++ (t' ++ tail)) := by simp
        rw [e1]
        have g1' := g1
        rw [hd', List.cons_append] at g1'
        obtain ⟨lg', g5, g6⟩ := arrayLoop_value n elems _ _ _ _ hns g1'
        rw [← List.cons_append, ← hd'] at g5
        rw [g5]
        rcases st1 with ⟨r1, e2, a1, l1⟩
        dsimp only at g3 g4
        subst g3
        have hlg : q → lg' = lg := by
          intro h
          rw [g6, ← gq h]
          rcases g4 with ⟨h0, _⟩ | ⟨h0, _⟩
          · exact h0
          · rw [h0]; exact hqb h
        have fin : ∀ {u : Str}, ArrText q true u l' → u.length ≤ m → u.length < n → r1 = u ++ tail →
            ∃ items st, arrayLoop n true (elems ++ [i]) ⟨r1, e2, a1, lg'⟩ = .ok (elems ++ items) st ∧
            st.rest = tail ∧ st.aot = a1 ∧ MeansAll (w :: l') (items.filter Item.isData) ∧ (q → st.loss = lg) := by
          intro u hu hum hun hr1
          obtain ⟨items, st, k1, k2, k3, k4, kq⟩ := ih hum hu n tail (elems ++ [i]) e2 a1 lg' hun
          rw [hr1]
          refine ⟨_, st, by rw [k1, List.append_assoc], k2, k3, ?_, fun h => (kq h).trans (hlg h)⟩
          have hk := means_kind g2
          rw [List.singleton_append, List.filter_cons_of_pos]
          · exact ⟨_, _, rfl, g2, k4⟩
          · simp [Item.isData, hk]
        rcases g4 with ⟨_, g4⟩ | ⟨_, g4⟩
        · exact fin h' (by simp at hm ⊢; omega) (by simp at hn ⊢; omega) (by rw [g4]; simp)
        · exact fin (h'.dropBlank hb) (by simp at hm; omega) (by simp at hn; omega) g4
    · -- white space
      rw [arrayLoop]
      simp only [getSt_bind, skip_bind, s1, s2]
      have hpos : 0 < ind.length := List.length_pos_iff.2 hi
      have rec' := fun it e' => ih (by omega) hd n tail (elems ++ [it]) e' a lg (by omega)
      have drop : ∀ (it : Item) (x : Str), it.isData = false →
          ∃ items st, arrayLoop n p (elems ++ [it]) ⟨t.dropWhile isWs ++ tail, x, a, lg⟩ = .ok (elems ++ items) st ∧ st.rest = tail ∧ st.aot = a ∧
          MeansAll l (items.filter Item.isData) ∧ (q → st.loss = lg) := by
        intro it x hit
        obtain ⟨items, st, g1, g2, g3, g4, gq⟩ := rec' it x
        refine ⟨_, st, by rw [g1, List.append_assoc], g2, g3, ?_, gq⟩
        rw [List.singleton_append, List.filter_cons_of_neg]
        · exact g4
        · rw [hit]; exact Bool.false_ne_true
      by_cases hnl : ind.any isNl = true
      · rw [if_pos hnl]
        exact drop _ _ rfl
      · rw [if_neg hnl]
        by_cases h35 : (St.mk (t.dropWhile isWs ++ tail) (e ++ ind) a lg).cur = 35
        · rw [if_pos h35]
          generalize hx : t.dropWhile isWs = x at *
          cases hd with
          | close => cases h35
          | @ws _ c t' _ hc _ =>
            rw [St.cur, List.cons_append] at h35
            dsimp only at h35
            subst h35; cases hc
          | @cmt _ s c t' _ hs hc h' =>
            rw [List.cons_append, List.append_assoc, List.cons_append]
            rw [P.bind_def, comment_in_array hs hc]
            dsimp only
            obtain ⟨items, st, g1, g2, g3, g4, gq⟩ := ih (by simp at hlen ⊢; omega) h' n tail (elems ++ [.comment ⟨ind, [], 35 :: s, []⟩]) [] a lg
              (by simp at hlen ⊢; omega)
            refine ⟨_, st, by rw [List.cons_append] at g1; rw [g1, List.append_assoc], g2, g3, ?_, gq⟩
            rw [List.singleton_append, List.filter_cons_of_neg]
            · exact g4
            · exact Bool.false_ne_true
          | comma => cases h35
          | elem hr =>
            obtain ⟨d, r, hd', hns⟩ := hr.head
            subst hd'
            have : d = 35 := h35
            exact absurd this (notWs_of_no hns).2.1
        · rw [if_neg h35]
          have : (!ind.isEmpty) = true := by simp [hi]
          rw [if_pos this]
          exact drop _ _ rfl

/-- an array read as a value -/
theorem reads_array {t : Str} {l : List PyVal} (h : ArrText q false t l) : ReadsAs q (91 :: t) (.list l) := by
  intro n b tail e a lg hn hb ht
  obtain ⟨n, rfl⟩ := succ_of_lt hn
  obtain ⟨items, st, g1, g2, g3, g4, gq⟩ := arrayLoop_reads _ (Nat.le_refl _) h n (b ++ tail) [] [91] a lg (by simp at hn; omega)
  refine ⟨.array (groupValues items) {} false, st, ?_, ?_, rfl, g3, .inl ⟨rfl, g2⟩, gq⟩
  · rw [parseValue]
    have hne : t ++ (b ++ tail) ≠ [] := by
      have := h.mem
      intro h0
      rw [(List.append_eq_nil_iff.1 h0).1] at this; cases this
    rw [mark_bind, getSt_bind, List.cons_append, St.cur_cons, if_neg (by omega), if_neg (by omega), if_neg (by omega),
      if_neg (by omega), if_pos rfl, stepE_bind_cons' _ _ _ _ _ _ hne, List.nil_append, P.bind_def, g1]
    rfl
  · refine means_array _ _ ?_
    unfold groupValues
    rw [printed_groupLoop]
    exact g4

end Tomlkit
