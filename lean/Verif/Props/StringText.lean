import Verif.Props.Strings
import Verif.Spec.Numbers
import Verif.Proofs.Dates
import Verif.Proofs.StringInv
/-!
# C30 and C38: string literals and concatenation
-/
namespace Tomlkit
open Spec

/-- the unicode escapes that the code accepts -/
def codeUni (n : Nat) (ds : Str) (c : Nat) : Prop := peekUnicode n (ds ++ [34]) = some c

theorem peekUnicode_ext (n : Nat) (ds r : Str) (h : ds.length = n) (y : Chr) :
    peekUnicode n (ds ++ y :: r) = peekUnicode n (ds ++ [34]) := by
  subst h
  have h1 : ¬ (ds ++ y :: r).length ≤ ds.length := by simp
  have h2 : ¬ (ds ++ [34]).length ≤ ds.length := by simp
  unfold peekUnicode
  simp only [h1, h2, if_false, List.take_left]

theorem refused_slb (c : Chr) : refusedInString .slb c = true ↔ Control c ∧ c ≠ 9 := by
  simp [refusedInString, isCtrl, StrType.isMultiline, Control]
  omega

theorem refused_slb' (c : Chr) : refusedInString .slb c = false ↔ ¬ (Control c ∧ c ≠ 9) := by
  rw [← refused_slb]; simp

theorem escapedChar_iff (x c : Nat) : escapedChar x = some c ↔ (x, c) ∈ simpleEscapes := by
  unfold escapedChar simpleEscapes
  repeat' split
  all_goals simp_all
  all_goals omega

theorem parseEscapedChar_simple {x c : Nat} (h : escapedChar x = some c) (y r e a l) :
    parseEscapedChar false ⟨x :: y :: r, e, a, l⟩ = .ok [c] ⟨y :: r, e ++ [x], a, l⟩ := by
  unfold parseEscapedChar
  simp only [getSt_bind, Bool.false_and, Bool.false_eq_true, if_false, St.cur_cons]
  rw [h]
  rfl

theorem parseEscapedChar_uni {x n c : Nat} {ds : Str} (hx : (x = 117 ∧ n = 4) ∨ (x = 85 ∧ n = 8)) (hl : ds.length = n)
    (hu : codeUni n ds c) (y r e a l) :
    parseEscapedChar false ⟨x :: (ds ++ y :: r), e, a, l⟩ = .ok [c] ⟨y :: r, e ++ x :: ds, a, l⟩ := by
  have hp : peekUnicode n (ds ++ y :: r) = some c := by rw [peekUnicode_ext n ds r hl y]; exact hu
  have hmain : parseEscapedChar false ⟨x :: (ds ++ y :: r), e, a, l⟩ =
      (match peekUnicode n (ds ++ y :: r) with
        | some u => (do stepN (n + 1); return [u] : P Str)
        | none => fail .invalidUnicode) ⟨x :: (ds ++ y :: r), e, a, l⟩ := by
    rcases hx with ⟨rfl, rfl⟩ | ⟨rfl, rfl⟩ <;> rfl
  rw [hmain, hp]
  subst hl
  simp

theorem strLoop_escape (n : Nat) (value x : Str) (c : Nat) (r e a l) (st' : St)
    (h : parseEscapedChar false ⟨x ++ r, e ++ [92], a, l⟩ = .ok [c] st') (hne : x ++ r ≠ []) :
    strLoop .slb (n + 2) value false ⟨92 :: (x ++ r), e, a, l⟩ = strLoop .slb n (value ++ [c]) false st' := by
  obtain ⟨y, r', hyr⟩ : ∃ y r', x ++ r = y :: r' := by
    cases hx : x ++ r with
    | nil => exact absurd hx hne
    | cons y r' => exact ⟨y, r', rfl⟩
  rw [hyr] at h ⊢
  rw [strLoop]
  simp [refusedInString, isCtrl, StrType.unit, StrType.isBasic]
  rw [strLoop]
  simp only [getSt_bind, Bool.not_true, Bool.false_and, Bool.false_eq_true, if_false, StrType.isBasic,
    StrType.isMultiline, Bool.and_self, if_true]
  rw [P.bind_def, h]

theorem strLoop_body (o v : Str) (h : BasicBody codeUni o v) : ∀ (n : Nat) (value tail e : Str) (a : List Key) (l : List Loss),
    o.length < n →
    strLoop .slb n value false ⟨o ++ 34 :: tail, e, a, l⟩ =
      .ok (.str .slb (value ++ v) (e ++ o) {}) ⟨tail, e ++ o ++ [34], a, l⟩ := by
  induction h with
  | nil =>
    intro n value tail e a l hn
    obtain ⟨n, rfl⟩ : ∃ m, n = m + 1 := ⟨n - 1, by simp at hn; omega⟩
    rw [strLoop]
    simp [refusedInString, isCtrl, StrType.unit, StrType.isMultiline]
  | char c o v h1 h2 h3 h4 ih =>
    intro n value tail e a l hn
    obtain ⟨y, r, hyr⟩ := exists_cons_append o 34 tail
    obtain ⟨n, rfl⟩ : ∃ m, n = m + 1 := ⟨n - 1, by omega⟩
    rw [List.cons_append, hyr]
    rw [strLoop_char (delim := .slb) n value c y r e a l ((refused_slb' c).2 h1) h2 (fun _ => h3), ← hyr,
      ih n _ tail _ a l (by simp at hn; omega)]
    simp
  | esc x c o v h1 h2 ih =>
    intro n value tail e a l hn
    simp at hn
    obtain ⟨n, rfl⟩ : ∃ m, n = m + 2 := ⟨n - 2, by omega⟩
    obtain ⟨y, r, hyr⟩ := exists_cons_append o 34 tail
    have := parseEscapedChar_simple ((escapedChar_iff x c).2 h1) y r (e ++ [92]) a l
    rw [← hyr] at this
    rw [List.cons_append, List.cons_append]
    have h2 := strLoop_escape n value [x] c (o ++ 34 :: tail) e a l _ this (by simp)
    rw [List.singleton_append] at h2
    rw [h2, ih n _ tail _ a l (by omega)]
    simp
  | uni4 ds c o v h1 h2 h3 ih =>
    intro n value tail e a l hn
    simp at hn
    obtain ⟨n, rfl⟩ : ∃ m, n = m + 2 := ⟨n - 2, by omega⟩
    obtain ⟨y, r, hyr⟩ := exists_cons_append o 34 tail
    have := parseEscapedChar_uni (x := 117) (by simp) h1 h2 y r (e ++ [92]) a l
    rw [← hyr] at this
    have h2 := strLoop_escape n value (117 :: ds) c (o ++ 34 :: tail) e a l _ this (by simp)
    rw [List.cons_append] at h2
    rw [List.cons_append, List.cons_append, List.append_assoc, h2, ih n _ tail _ a l (by omega)]
    simp
  | uni8 ds c o v h1 h2 h3 ih =>
    intro n value tail e a l hn
    simp at hn
    obtain ⟨n, rfl⟩ : ∃ m, n = m + 2 := ⟨n - 2, by omega⟩
    obtain ⟨y, r, hyr⟩ := exists_cons_append o 34 tail
    have := parseEscapedChar_uni (x := 85) (by simp) h1 h2 y r (e ++ [92]) a l
    rw [← hyr] at this
    have h2 := strLoop_escape n value (85 :: ds) c (o ++ 34 :: tail) e a l _ this (by simp)
    rw [List.cons_append] at h2
    rw [List.cons_append, List.cons_append, List.append_assoc, h2, ih n _ tail _ a l (by omega)]
    simp

theorem stepE_ok {st st' : St} {u : Unit} : stepE st = .ok u st' ↔
    ∃ c d r, st.rest = c :: d :: r ∧ st' = { st with rest := d :: r, ext := st.ext ++ [c] } := by
  obtain ⟨rest, e, a, l⟩ := st
  match rest with
  | [] => simp [stepE]
  | [c] => simp [stepE]
  | c :: d :: r =>
    simp only [stepE, Res.ok.injEq, true_and]
    constructor
    · rintro rfl; exact ⟨c, d, r, rfl, rfl⟩
    · rintro ⟨c', d', r', h, rfl⟩
      simp at h
      obtain ⟨rfl, rfl, rfl⟩ := h
      rfl

/-- what one escape sequence after the backslash may be -/
def EscText (x : Str) (c : Nat) : Prop :=
  (∃ y, x = [y] ∧ (y, c) ∈ simpleEscapes) ∨ (∃ ds, x = 117 :: ds ∧ ds.length = 4 ∧ codeUni 4 ds c) ∨
    (∃ ds, x = 85 :: ds ∧ ds.length = 8 ∧ codeUni 8 ds c)

theorem basicBody_esc {x o v : Str} {c : Nat} (h : EscText x c) (hb : BasicBody codeUni o v) :
    BasicBody codeUni (92 :: (x ++ o)) (c :: v) := by
  rcases h with ⟨y, rfl, hy⟩ | ⟨ds, rfl, hl, hu⟩ | ⟨ds, rfl, hl, hu⟩
  · exact .esc y c o v hy hb
  · exact .uni4 ds c o v hl hu hb
  · exact .uni8 ds c o v hl hu hb

theorem peekUnicode_split {n : Nat} {s : Str} {c : Nat} (h : peekUnicode n s = some c) :
    ∃ ds y r, s = ds ++ y :: r ∧ ds.length = n ∧ codeUni n ds c := by
  have hl : n < s.length := by
    unfold peekUnicode at h
    simp only at h
    split at h
    · cases h
    · omega
  refine ⟨s.take n, s[n], s.drop (n + 1), ?_, by simp; omega, ?_⟩
  · rw [← List.drop_eq_getElem_cons hl, List.take_append_drop]
  · unfold codeUni
    have h2 : s = s.take n ++ s[n] :: s.drop (n + 1) := by
      rw [← List.drop_eq_getElem_cons hl, List.take_append_drop]
    rw [← h]
    conv => rhs; rw [h2]
    exact (peekUnicode_ext n (s.take n) _ (by simp; omega) _).symm

theorem parseEscapedChar_inv {st st' : St} {w : Str} (h : parseEscapedChar false st = .ok w st') :
    ∃ x c r, EscText x c ∧ w = [c] ∧ st.rest = x ++ r ∧ st' = { st with rest := r, ext := st.ext ++ x } := by
  unfold parseEscapedChar at h
  simp only [getSt_bind, Bool.false_and, Bool.false_eq_true, if_false] at h
  rcases he : escapedChar st.cur with _ | c <;> rw [he] at h
  · simp only at h
    split at h
    · rename_i hu
      generalize hn : (if st.cur = 85 then 8 else 4) = n at h
      rcases hp : peekUnicode n (st.rest.drop 1) with _ | c <;> rw [hp] at h
      · simp at h
      · simp at h
        obtain ⟨rfl, rfl⟩ := h
        obtain ⟨ds, y, r, hs, hl, hc⟩ := peekUnicode_split hp
        obtain ⟨rest, e, a, l⟩ := st
        cases rest with
        | nil => simp [St.cur] at hu
        | cons z rest =>
          simp at hs
          subst hs
          have hu : z = 117 ∨ z = 85 := by
            rw [Bool.or_eq_true] at hu
            exact hu.imp of_decide_eq_true of_decide_eq_true
          have hn : (if z = 85 then 8 else 4) = n := hn
          simp
          refine ⟨z :: ds, c, ?_, rfl, y :: r, rfl, ?_, ?_⟩
          · rcases hu with rfl | rfl
            · simp at hn; subst hn
              exact .inr (.inl ⟨ds, rfl, hl, hc⟩)
            · simp at hn; subst hn
              exact .inr (.inr ⟨ds, rfl, hl, hc⟩)
          · subst hl; simp
          · subst hl; simp
    · simp at h
  · simp only at h
    rw [P.bind_ok] at h
    obtain ⟨_, s1, h1, h2⟩ := h
    rw [stepE_ok] at h1
    obtain ⟨z, d, r, hr, rfl⟩ := h1
    simp at h2
    obtain ⟨rfl, rfl⟩ := h2
    have hz : st.cur = z := by unfold St.cur; rw [hr]
    rw [hz] at he
    exact ⟨[z], c, d :: r, .inl ⟨z, rfl, (escapedChar_iff z c).1 he⟩, rfl, hr, rfl⟩

theorem strLoop_inv : ∀ (n : Nat) (value : Str) (st st' : St) (it : Item),
    (strLoop .slb n value false st = .ok it st' →
      ∃ o v tail, st.rest = o ++ 34 :: tail ∧ BasicBody codeUni o v ∧ it = .str .slb (value ++ v) (st.ext ++ o) {} ∧
        st' = { st with rest := tail, ext := st.ext ++ o ++ [34] }) ∧
    (strLoop .slb n value true st = .ok it st' →
      ∃ x c o v tail, EscText x c ∧ st.rest = x ++ (o ++ 34 :: tail) ∧ BasicBody codeUni o v ∧
        it = .str .slb (value ++ c :: v) (st.ext ++ x ++ o) {} ∧
        st' = { st with rest := tail, ext := st.ext ++ x ++ o ++ [34] }) := by
  intro n
  induction n with
  | zero => intro value st st' it; exact ⟨fun h => by simp [strLoop] at h, fun h => by simp [strLoop] at h⟩
  | succ n ih =>
    intro value st st' it
    constructor
    · intro h
      rw [strLoop] at h
      simp only [getSt_bind, Bool.not_false, Bool.true_and, StrType.isBasic, StrType.isMultiline, StrType.unit,
        Bool.and_false, Bool.false_eq_true, if_false] at h
      split at h
      · simp at h
      · rename_i href
        split at h
        · rename_i hq
          replace hq : st.cur = 34 := of_decide_eq_true hq
          obtain ⟨rest, e, a, l⟩ := st
          cases rest with
          | nil => simp at hq
          | cons z rest =>
            simp at hq
            subst hq
            simp at h
            exact ⟨[], [], rest, rfl, .nil, by simp [h.1], by simp [← h.2]⟩
        · rename_i hq
          replace hq : ¬ st.cur = 34 := fun h => hq (decide_eq_true h)
          split at h
          · rename_i h92
            replace h92 : st.cur = 92 := of_decide_eq_true h92
            rw [P.bind_ok] at h
            obtain ⟨_, s1, h1, h2⟩ := h
            rw [stepE_ok] at h1
            obtain ⟨z, d, r, hr, rfl⟩ := h1
            have hz : st.cur = z := by unfold St.cur; rw [hr]
            rw [hz] at h92
            subst h92
            obtain ⟨x, c, o, v, tail, g1, g2, g3, g4, g5⟩ := (ih _ _ _ _).2 h2
            simp only at g2 g4 g5
            refine ⟨92 :: (x ++ o), c :: v, tail, ?_, basicBody_esc g1 g3, ?_, ?_⟩
            · rw [hr, g2]; simp
            · rw [g4]; simp
            · rw [g5]; simp
          · rename_i h92
            replace h92 : ¬ st.cur = 92 := fun h => h92 (decide_eq_true h)
            rw [P.bind_ok] at h
            obtain ⟨_, s1, h1, h2⟩ := h
            rw [stepE_ok] at h1
            obtain ⟨z, d, r, hr, rfl⟩ := h1
            have hz : st.cur = z := by unfold St.cur; rw [hr]
            rw [hz] at h92 h2 hq href
            obtain ⟨o, v, tail, g2, g3, g4, g5⟩ := (ih _ _ _ _).1 h2
            simp only at g2 g4 g5
            refine ⟨z :: o, z :: v, tail, ?_, .char z o v ?_ hq h92 g3, ?_, ?_⟩
            · rw [hr, g2]; simp
            · rw [← refused_slb]; exact href
            · rw [g4]; simp
            · rw [g5]; simp
    · intro h
      rw [strLoop] at h
      simp only [getSt_bind, Bool.not_true, Bool.false_and, StrType.isBasic, StrType.isMultiline,
        Bool.and_true, Bool.false_eq_true, if_false, if_true] at h
      rw [P.bind_ok] at h
      obtain ⟨w, s1, h1, h2⟩ := h
      obtain ⟨x, c, r, g0, rfl, g1, rfl⟩ := parseEscapedChar_inv h1
      obtain ⟨o, v, tail, g2, g3, g4, g5⟩ := (ih _ _ _ _).1 h2
      simp only at g2 g4 g5
      refine ⟨x, c, o, v, tail, g0, ?_, g3, ?_, ?_⟩
      · rw [g1, g2]
      · rw [g4]; simp
      · rw [g5]

theorem basicBody_head {o v : Str} (h : BasicBody codeUni o v) (hne : o ≠ []) : ∃ y r, o = y :: r ∧ y ≠ 34 := by
  cases h with
  | nil => exact absurd rfl hne
  | char c o v h1 h2 h3 h4 => exact ⟨c, o, rfl, h2⟩
  | esc x c o v h1 h2 => exact ⟨92, _, rfl, by omega⟩
  | uni4 ds c o v h1 h2 h3 => exact ⟨92, _, rfl, by omega⟩
  | uni8 ds c o v h1 h2 h3 => exact ⟨92, _, rfl, by omega⟩

theorem basicBody_nil {v : Str} (h : BasicBody codeUni [] v) : v = [] := by cases h; rfl

theorem parseString_body {o v : Str} (h : BasicBody codeUni o v) (tail e : Str) (a l) (ht : tail.head? ≠ some 34) :
    ∃ e', parseString .slb ⟨34 :: (o ++ 34 :: tail), e, a, l⟩ = .ok (.str .slb v o {}) ⟨tail, e', a, l⟩ := by
  unfold parseString
  by_cases hs : o = []
  · subst hs
    have hv := basicBody_nil h
    subst hv
    cases tail with
    | nil => exact ⟨_, by simp [StrType.unit]; rfl⟩
    | cons t tail =>
      have : t ≠ 34 := by simpa using ht
      exact ⟨_, by simp [StrType.unit, this]; rfl⟩
  · obtain ⟨y, r, hyr, hy⟩ := basicBody_head h hs
    refine ⟨o ++ [34], ?_⟩
    have hl : o.length < (o ++ 34 :: tail).length + 1 := by simp; omega
    have hb := strLoop_body o v h ((o ++ 34 :: tail).length + 1) [] tail [] a l hl
    rw [hyr] at hb ⊢
    simp only [List.cons_append] at hb ⊢
    simp [StrType.unit, hy, strBody, skipFirstNl, StrType.isMultiline]
    simpa using hb

theorem parseString_body_inv {r e : Str} {a l} {v o : Str} {t : Trivia} {st' : St}
    (h : parseString .slb ⟨34 :: r, e, a, l⟩ = .ok (.str .slb v o t) st') :
    r = o ++ 34 :: st'.rest ∧ BasicBody codeUni o v ∧ t = {} := by
  unfold parseString at h
  simp only [getSt_bind] at h
  rw [if_neg (by show ¬ (34 ≠ 34); decide), P.bind_ok] at h
  obtain ⟨_, s1, h1, h⟩ := h
  rw [stepE_ok] at h1
  obtain ⟨c, d, r', hr, rfl⟩ := h1
  simp only [List.cons.injEq] at hr
  obtain ⟨rfl, rfl⟩ := hr
  simp only [getSt_bind] at h
  split at h
  · rename_i hd
    replace hd : d = 34 := hd
    subst hd
    simp only [step_bind_cons, getSt_bind] at h
    split at h
    · simp at h
      obtain ⟨⟨rfl, rfl, rfl⟩, rfl⟩ := h
      exact ⟨rfl, .nil, rfl⟩
    · rw [P.bind_ok] at h
      obtain ⟨_, s2, _, h⟩ := h
      obtain ⟨_, _, h'⟩ := strBody_isStr h
      simp [StrType.toggle] at h'
  · unfold strBody skipFirstNl at h
    simp only [mark_bind, StrType.isMultiline, Bool.false_eq_true, if_false, pure_bind', getSt_bind] at h
    obtain ⟨o', v', tail, g1, g2, g3, g4⟩ := (strLoop_inv _ _ _ _ _).1 h
    simp at g3
    obtain ⟨rfl, rfl, rfl⟩ := g3
    rw [g4]
    exact ⟨g1, g2, rfl⟩

/-- **C38.** The exact grammar of one-line basic strings: `value()` reads `"` text `"` as a basic string with that
text and value `v` exactly when the text is a sequence of plain characters and escapes that denotes `v`. -/
theorem C38_basic_string_grammar (o v : Str) :
    apiValue (34 :: (o ++ [34])) = .ok (.str .slb v o {}) ↔ BasicBody codeUni o v := by
  have hpv : ∀ r, parseValue (valueFuel (34 :: r)) (.init (34 :: r)) = restoring (parseString .slb) ⟨34 :: r, [], [], []⟩ := by
    intro r
    obtain ⟨n, hn⟩ : ∃ n, valueFuel (34 :: r) = n + 1 := ⟨valueFuel (34 :: r) - 1, by unfold valueFuel; omega⟩
    rw [hn]
    exact parseValue_dq n r [] [] []
  constructor
  · intro h
    unfold apiValue at h
    rw [hpv] at h
    unfold restoring at h
    split at h
    · rename_i v' st' hv
      split at hv
      · rename_i a s' hs
        injection hv with hv1 hv2
        subst hv1 hv2
        split at h
        · rename_i hend
          injection h with h
          subst h
          obtain ⟨g1, g2, _⟩ := parseString_body_inv hs
          exact g2
        · cases h
      · cases hv
    · cases h
  · intro h
    obtain ⟨e', hp⟩ := parseString_body h [] [] [] [] (by simp)
    apply apiValue_of (e := e') (a := []) (l := [])
    rw [hpv]
    exact restoring_ok hp

theorem baseDigit_hex {c : Nat} (h : IsDigit 16 c) : baseDigit 16 c = some (dig c) := by
  obtain ⟨d, hd, hlt⟩ := h
  unfold dig
  rw [hd]
  unfold digitValue at hd
  unfold baseDigit digitVal
  split at hd
  · rename_i h1
    injection hd with hd
    simp [h1, ← hd]; omega
  · split at hd
    · rename_i h0 h1
      injection hd with hd
      have : ¬ (c ≤ 57) := by omega
      simp [this]
      have h3 : 97 ≤ c ∧ c ≤ 122 := by omega
      simp [h3, ← hd]; omega
    · split at hd
      · rename_i h0 h00 h1
        injection hd with hd
        have h2 : ¬ (c ≤ 57) := by omega
        have h3 : ¬ (97 ≤ c) := by omega
        have h4 : 65 ≤ c ∧ c ≤ 90 := by omega
        simp [h2, h3, h4, ← hd]; omega
      · cases hd

theorem hex_range {c : Nat} (h : IsDigit 16 c) : (48 ≤ c ∧ c ≤ 57) ∨ (97 ≤ c ∧ c ≤ 102) ∨ (65 ≤ c ∧ c ≤ 70) := by
  obtain ⟨d, hd, _⟩ := h
  unfold digitValue at hd
  repeat' split at hd
  all_goals first | omega | cases hd

theorem intDigits_hex (ds : Str) (h : ∀ c ∈ ds, IsDigit 16 c) (b : Bool) (hb : b = true ∨ ds ≠ []) (acc : Nat) :
    intDigits 16 b acc ds = some (ds.foldl (fun a c => a * 16 + dig c) acc) := by
  induction ds generalizing b acc with
  | nil => simp at hb; simp [intDigits, hb]
  | cons c ds ih =>
    have hc := hex_range (h c (by simp))
    rw [intDigits, if_neg (by omega), baseDigit_hex (h c (by simp))]
    exact ih (fun x hx => h x (by simp [hx])) true (.inl rfl) _

theorem pyInt_hex {ds : Str} (h : ∀ c ∈ ds, IsDigit 16 c) (hne : ds ≠ []) : pyInt 16 ds = some (positional 16 ds : Nat) := by
  have hr : ∀ c ∈ ds, 32 < c ∧ c < 127 := fun c hc => by have := hex_range (h c hc); omega
  unfold pyInt
  simp only
  rw [prep_id hr]
  have hs : intSign ds = (false, ds) := by
    cases ds with
    | nil => rfl
    | cons c ds =>
      have := hex_range (h c (by simp))
      unfold intSign
      split
      · rename_i heq; injection heq with h1; omega
      · rename_i heq; injection heq with h1; omega
      · rfl
  have hd : dropBasePrefix 16 ds = ds := by
    unfold dropBasePrefix
    split
    · rename_i x r
      have := hex_range (h x (by simp))
      rw [if_neg]
      simp
      omega
    · rfl
  rw [hs]
  simp only [hd]
  rw [intDigits_hex ds h false (.inr hne) 0]
  rfl

/-- the two leading digits that the code takes for a surrogate -/
def surrogateHead : Str → Bool
  | a :: b :: _ => (decide (a = 100) || decide (a = 68)) && !(decide (48 ≤ b) && decide (b ≤ 55))
  | _ => false

/-- **C38, unicode escapes.** Four hexadecimal digits after `\u` are accepted exactly if they do not denote a
surrogate, and denote their positional value. Eight digits after `\U` are accepted exactly up to 0x10FFFF — the code
also lets surrogates through there. -/
theorem C38_unicode_escape (ds : Str) (hex : ∀ c ∈ ds, IsDigit 16 c) (c : Nat) :
    (ds.length = 4 → (codeUni 4 ds c ↔ c = positional 16 ds ∧ ¬ (0xD800 ≤ c ∧ c ≤ 0xDFFF))) ∧
    (ds.length = 8 → (codeUni 8 ds c ↔ c = positional 16 ds ∧ c ≤ 0x10FFFF)) := by
  have key : ∀ n, ds.length = n → n ≠ 0 → ∀ sur : Bool,
      surrogateHead ds = sur →
      (codeUni n ds c ↔ sur = false ∧ c = positional 16 ds ∧ c ≤ 0x10FFFF) := by
    intro n hn h0 sur hsur
    subst hn
    have hne : ds ≠ [] := by intro h; simp [h] at h0
    have hpk : ∀ s : Str, peekUnicode ds.length s = if s.length ≤ ds.length then none
        else if surrogateHead (s.take ds.length) then none
        else match pyInt 16 (s.take ds.length) with
          | some v => if 0 ≤ v && v ≤ 0x10ffff then some v.toNat else none
          | none => none := fun _ => rfl
    unfold codeUni
    rw [hpk]
    simp only [List.take_left]
    rw [if_neg (by simp)]
    rw [hsur, pyInt_hex hex hne]
    cases sur with
    | true => simp
    | false =>
      simp only [Bool.false_eq_true, if_false, true_and]
      show (if (decide (0 ≤ ((positional 16 ds : Nat) : Int)) && decide (((positional 16 ds : Nat) : Int) ≤ 0x10ffff)) = true
        then some (((positional 16 ds : Nat) : Int)).toNat else none) = some c ↔ _
      by_cases hr : positional 16 ds ≤ 0x10ffff
      · rw [if_pos (by simp; omega)]
        simp only [Option.some.injEq, Int.toNat_natCast]
        constructor
        · rintro rfl; exact ⟨rfl, by omega⟩
        · rintro ⟨rfl, _⟩; rfl
      · rw [if_neg (by simp; omega)]
        simp only [reduceCtorEq, false_iff]
        omega
  have dval : ∀ {x : Nat}, IsDigit 16 x → dig x < 16 ∧ (dig x = 13 ↔ x = 100 ∨ x = 68) ∧ (8 ≤ dig x ↔ ¬ (48 ≤ x ∧ x ≤ 55)) := by
    intro x hx
    have hr := hex_range hx
    unfold dig digitValue
    rcases hr with h | h | h
    · simp [h]; omega
    · have h1 : ¬ (x ≤ 57) := by omega
      simp [h1, h]; omega
    · have h1 : ¬ (x ≤ 57) := by omega
      have h2 : ¬ (97 ≤ x) := by omega
      simp [h1, h2, h]; omega
  constructor
  · intro h4
    rw [key 4 h4 (by omega) _ rfl]
    match ds, h4 with
    | [p, q, r, s], _ =>
      have hp := dval (hex p (by simp))
      have hq := dval (hex q (by simp))
      have hr := dval (hex r (by simp))
      have hs := dval (hex s (by simp))
      simp only [positional, List.foldl_cons, List.foldl_nil, Nat.zero_mul, Nat.zero_add]
      have hsur : ((decide (p = 100) || decide (p = 68)) && !(decide (48 ≤ q) && decide (q ≤ 55))) = false ↔
          ¬ (dig p = 13 ∧ 8 ≤ dig q) := by
        rw [hp.2.1, hq.2.2]
        cases hb : ((decide (p = 100) || decide (p = 68)) && !(decide (48 ≤ q) && decide (q ≤ 55))) with
        | true =>
          simp at hb
          simp
          omega
        | false =>
          simp at hb
          simp
          omega
      unfold surrogateHead
      rw [hsur]
      omega
  · intro h8
    rw [key 8 h8 (by omega) _ rfl]
    match ds, h8 with
    | [p, q, r, s, t, u, v, w], _ =>
      have hp := dval (hex p (by simp))
      have hq := dval (hex q (by simp))
      simp only [positional, List.foldl_cons, List.foldl_nil, Nat.zero_mul, Nat.zero_add]
      constructor
      · rintro ⟨_, h⟩; exact h
      · rintro ⟨h1, h2⟩
        refine ⟨?_, h1, h2⟩
        have : ¬ dig p = 13 := by omega
        rw [hp.2.1] at this
        have h5 : (decide (p = 100) || decide (p = 68)) = false := by simp; omega
        show ((decide (p = 100) || decide (p = 68)) && !(decide (48 ≤ q) && decide (q ≤ 55))) = false
        rw [h5]; rfl

example : apiValue (t!"\"a\\u00e9\\n\"") = .ok (.str .slb [97, 0xe9, 10] (t!"a\\u00e9\\n") {}) :=
  (C38_basic_string_grammar (t!"a\\u00e9\\n") [97, 0xe9, 10]).2
    (.char _ _ _ (by simp [Control]) (by decide) (by decide)
      (.uni4 (t!"00e9") 0xe9 _ _ rfl (by unfold codeUni; decide +kernel) (.esc 110 10 _ _ (by decide) .nil)))

/-! ## C30 -/

theorem basicBody_append {o v o' v' : Str} (h : BasicBody codeUni o v) (h' : BasicBody codeUni o' v') :
    BasicBody codeUni (o ++ o') (v ++ v') := by
  induction h with
  | nil => exact h'
  | char c o v h1 h2 h3 h4 ih => exact .char c _ _ h1 h2 h3 ih
  | esc x c o v h1 h2 ih => exact .esc x c _ _ h1 ih
  | uni4 ds c o v h1 h2 h3 ih =>
    rw [List.cons_append, List.cons_append, List.append_assoc]
    exact .uni4 ds c _ _ h1 h2 ih
  | uni8 ds c o v h1 h2 h3 ih =>
    rw [List.cons_append, List.cons_append, List.append_assoc]
    exact .uni8 ds c _ _ h1 h2 ih

theorem simpleEscapes_unique {x c c' : Nat} (h : (x, c) ∈ simpleEscapes) (h' : (x, c') ∈ simpleEscapes) : c = c' := by
  rw [← escapedChar_iff] at h h'
  rw [h] at h'
  injection h'

theorem simpleEscapes_not_u {x c : Nat} (h : (x, c) ∈ simpleEscapes) : x ≠ 117 ∧ x ≠ 85 := by
  simp [simpleEscapes] at h
  omega

theorem basicBody_split {o v t w : Str} (h : BasicBody codeUni o v) (h' : BasicBody codeUni (o ++ t) w) :
    ∃ w', w = v ++ w' ∧ BasicBody codeUni t w' := by
  induction h generalizing w with
  | nil => exact ⟨w, rfl, h'⟩
  | char c o v h1 h2 h3 h4 ih =>
    rw [List.cons_append] at h'
    generalize hX : (c :: (o ++ t)) = X at h'
    cases h' with
    | nil => cases hX
    | char c' o' v1 _ _ _ g =>
      simp at hX
      obtain ⟨rfl, rfl⟩ := hX
      obtain ⟨w', rfl, g'⟩ := ih g
      exact ⟨w', rfl, g'⟩
    | esc => injection hX with hX _; exact absurd hX h3
    | uni4 => injection hX with hX _; exact absurd hX h3
    | uni8 => injection hX with hX _; exact absurd hX h3
  | esc x c o v h1 h2 ih =>
    rw [List.cons_append, List.cons_append] at h'
    generalize hX : (92 :: x :: (o ++ t)) = X at h'
    cases h' with
    | nil => cases hX
    | char c' o' v' g1 g2 g3 g4 =>
      injection hX with hX _
      exact absurd hX.symm g3
    | esc x' c' o' v' g1 g2 =>
      simp at hX
      obtain ⟨rfl, rfl⟩ := hX
      obtain ⟨w', rfl, g'⟩ := ih g2
      exact ⟨w', by rw [simpleEscapes_unique h1 g1]; rfl, g'⟩
    | uni4 ds c' o' v' g1 g2 g3 =>
      simp at hX
      exact absurd hX.1 (simpleEscapes_not_u h1).1
    | uni8 ds c' o' v' g1 g2 g3 =>
      simp at hX
      exact absurd hX.1 (simpleEscapes_not_u h1).2
  | uni4 ds c o v h1 h2 h3 ih =>
    rw [List.cons_append, List.cons_append, List.append_assoc] at h'
    generalize hX : (92 :: 117 :: (ds ++ (o ++ t))) = X at h'
    cases h' with
    | nil => cases hX
    | char c' o' v' g1 g2 g3 g4 =>
      injection hX with hX _
      exact absurd hX.symm g3
    | esc x' c' o' v' g1 g2 =>
      simp at hX
      exact absurd hX.1.symm (simpleEscapes_not_u g1).1
    | uni4 ds' c' o' v' g1 g2 g3 =>
      simp at hX
      obtain ⟨e1, e2⟩ := List.append_inj hX (by omega)
      subst e1 e2
      obtain ⟨w', rfl, g'⟩ := ih g3
      unfold codeUni at h2 g2
      rw [h2] at g2
      injection g2 with g2
      exact ⟨w', by rw [g2]; rfl, g'⟩
    | uni8 ds' c' o' v' g1 g2 g3 => simp at hX
  | uni8 ds c o v h1 h2 h3 ih =>
    rw [List.cons_append, List.cons_append, List.append_assoc] at h'
    generalize hX : (92 :: 85 :: (ds ++ (o ++ t))) = X at h'
    cases h' with
    | nil => cases hX
    | char c' o' v' g1 g2 g3 g4 =>
      injection hX with hX _
      exact absurd hX.symm g3
    | esc x' c' o' v' g1 g2 =>
      simp at hX
      exact absurd hX.1.symm (simpleEscapes_not_u g1).2
    | uni4 ds' c' o' v' g1 g2 g3 => simp at hX
    | uni8 ds' c' o' v' g1 g2 g3 =>
      simp at hX
      obtain ⟨e1, e2⟩ := List.append_inj hX (by omega)
      subst e1 e2
      obtain ⟨w', rfl, g'⟩ := ih g3
      unfold codeUni at h2 g2
      rw [h2] at g2
      injection g2 with g2
      exact ⟨w', by rw [g2]; rfl, g'⟩

theorem basicBody_length {o v : Str} (h : BasicBody codeUni o v) : v.length ≤ o.length := by
  induction h with
  | nil => simp
  | char => simp; omega
  | esc => simp; omega
  | uni4 => simp; omega
  | uni8 => simp; omega

theorem basicBody_self {t : Str} : BasicBody codeUni t t ↔ PlainBasic t := by
  constructor
  · intro h
    suffices ∀ o v, BasicBody codeUni o v → o = v → PlainBasic o from this t t h rfl
    clear h
    intro o v h
    induction h with
    | nil => intro _ c hc; cases hc
    | char c o v h1 h2 h3 h4 ih =>
      intro h
      simp at h
      intro x hx
      rcases List.mem_cons.1 hx with rfl | hx
      · exact ⟨h1, h2, h3⟩
      · exact ih h x hx
    | esc x c o v h1 h2 ih =>
      intro h
      have := basicBody_length h2
      have hl := congrArg List.length h
      simp at hl; omega
    | uni4 ds c o v h1 h2 h3 ih =>
      intro h
      have := basicBody_length h3
      have hl := congrArg List.length h
      simp at hl; omega
    | uni8 ds c o v h1 h2 h3 ih =>
      intro h
      have := basicBody_length h3
      have hl := congrArg List.length h
      simp at hl; omega
  · intro h
    induction t with
    | nil => exact .nil
    | cons c t ih =>
      obtain ⟨h1, h2, h3⟩ := h c (by simp)
      exact .char c t t h1 h2 h3 (ih fun x hx => h x (by simp [hx]))

/-- Every basic string item that `item(s)`/`string(s)` makes has a text that denotes its value. -/
theorem C30_api_strings_denote (s : Str) : ∃ o, stringItem s = .str .slb s o {} ∧ BasicBody codeUni o s := by
  refine ⟨_, rfl, ?_⟩
  rw [← C38_basic_string_grammar]
  exact (C02_default_string_survives s).2

/-- **C30, two basic string items.** The value of the sum is the concatenation of the values, and if both texts
denote the values, so does the text of the sum. -/
theorem C30_item_plus_item (v o v' o' : Str) (t : Trivia) (h : BasicBody codeUni o v) (h' : BasicBody codeUni o' v') :
    ∃ o'', strAddItem .slb v o t v' o' = .str .slb (v ++ v') o'' t ∧
      apiValue (strAddItem .slb v o t v' o').asString = .ok (.str .slb (v ++ v') o'' {}) :=
  ⟨_, rfl, (C38_basic_string_grammar (o ++ o') (v ++ v')).2 (basicBody_append h h')⟩

/-- **C30, a basic string item and a plain `str` (partial).** The value of `s + t` is the concatenation, and its text denotes it exactly
when `t` holds no quote, no backslash and no control character except tab: the code does not escape `t`. -/
theorem C30_item_plus_str_partial (v o t : Str) (tr : Trivia) (h : BasicBody codeUni o v) :
    strAddPlain .slb v o tr t = .str .slb (v ++ t) (o ++ t) tr ∧
    (apiValue (strAddPlain .slb v o tr t).asString = .ok (.str .slb (v ++ t) (o ++ t) {}) ↔ PlainBasic t) := by
  refine ⟨rfl, ?_⟩
  have : apiValue (strAddPlain .slb v o tr t).asString = .ok (.str .slb (v ++ t) (o ++ t) {}) ↔
      BasicBody codeUni (o ++ t) (v ++ t) := C38_basic_string_grammar (o ++ t) (v ++ t)
  rw [this]
  constructor
  · intro hb
    obtain ⟨w', hw, hb'⟩ := basicBody_split h hb
    have : w' = t := (List.append_cancel_left hw).symm
    subst this
    exact basicBody_self.1 hb'
  · intro hp
    exact basicBody_append (o := o) (v := v) (o' := t) (v' := t) h (basicBody_self.2 hp)

/-- **C30 fails**: `item("a") + "\""` is written `"a""`, which is not a value. -/
theorem C30_counterexample : stringItem (t!"a") = .str .slb (t!"a") (t!"a") {} ∧
    (strAddPlain .slb (t!"a") (t!"a") {} (t!"\"")).asString = t!"\"a\"\"" ∧
    (apiValue (strAddPlain .slb (t!"a") (t!"a") {} (t!"\"")).asString).toOption.isNone = true := by
  refine ⟨?_, ?_, ?_⟩
  · unfold stringItem
    have : escapeString (t!"a") StrType.slb.escapedSequences = t!"a" := by decide +kernel
    rw [this]
  · rfl
  · decide +kernel

/-- **C30, literal strings.** `'a' + t` denotes the concatenation when `t` may stand between single quotes. -/
theorem C30_literal (v t : Str) (tr : Trivia) (h : PlainLiteral v) (h' : PlainLiteral t) :
    strAddPlain .sll v v tr t = .str .sll (v ++ t) (v ++ t) tr ∧
    apiValue (strAddPlain .sll v v tr t).asString = .ok (.str .sll (v ++ t) (v ++ t) {}) := by
  refine ⟨rfl, ?_⟩
  have hall : ∀ c ∈ v ++ t, refusedInString .sll c = false ∧ c ≠ 39 := by
    intro c hc
    have : ¬ (Control c ∧ c ≠ 9) ∧ c ≠ 39 := by
      rcases List.mem_append.1 hc with hc | hc
      · exact h c hc
      · exact h' c hc
    refine ⟨?_, this.2⟩
    have h1 := this.1
    simp [refusedInString, isCtrl, StrType.isMultiline, Control] at h1 ⊢
    omega
  obtain ⟨e', hp⟩ := parseString_sll (v ++ t) [] [] [] [] hall (by simp)
  have htext : (strAddPlain .sll v v tr t).asString = 39 :: ((v ++ t) ++ [39]) := rfl
  rw [htext]
  obtain ⟨n, hn⟩ : ∃ n, valueFuel (39 :: (v ++ t ++ [39])) = n + 1 :=
    ⟨valueFuel (39 :: (v ++ t ++ [39])) - 1, by unfold valueFuel; omega⟩
  apply apiValue_of (e := e') (a := []) (l := [])
  rw [hn]
  have := parseValue_sq n (v ++ t ++ [39]) [] [] []
  exact this.trans (restoring_ok hp)

example : BasicBody codeUni (t!"a\\n") (t!"a\n") ∧ PlainBasic (t!"b c") ∧ PlainLiteral (t!"x\\y") := by
  refine ⟨?_, ?_, ?_⟩
  · exact .char _ _ _ (by simp [Control]) (by decide) (by decide) (.esc 110 10 _ _ (by decide) .nil)
  · intro c hc; simp at hc; simp [Control]; omega
  · intro c hc; simp at hc; simp [Control]; omega

end Tomlkit
