import Verif.Proofs.Reads
import Verif.Props.StringText
import Verif.Spec.Toml
/-!
# The strings of TOML are read as what they denote
-/
namespace Tomlkit
open _root_.Spec Tomlkit.Spec

variable {q : Prop}

theorem hexEscape_code {n : Nat} {ds : Str} {c : Nat} (h : HexEscape n ds c) (hn : n = 4 ∨ n = 8) : codeUni n ds c := by
  obtain ⟨h1, h2, h3, h4, h5⟩ := h
  rcases hn with rfl | rfl
  · exact ((C38_unicode_escape ds h2 c).1 h1).2 ⟨h3, h5⟩
  · exact ((C38_unicode_escape ds h2 c).2 h1).2 ⟨h3, h4⟩

theorem basicBody_code {o v : Str} (h : BasicBody HexEscape o v) : BasicBody codeUni o v := by
  induction h with
  | nil => exact .nil
  | char c o v h1 h2 h3 _ ih => exact .char c o v h1 h2 h3 ih
  | esc x c o v h1 _ ih => exact .esc x c o v h1 ih
  | uni4 ds c o v h1 h2 _ ih => exact .uni4 ds c o v h1 (hexEscape_code h2 (.inl rfl)) ih
  | uni8 ds c o v h1 h2 _ ih => exact .uni8 ds c o v h1 (hexEscape_code h2 (.inr rfl)) ih

theorem head_ne_39 {b tail : Str} (hb : Blank b) (ht : DateEnds tail) : (b ++ tail).head? ≠ some 39 := by
  rcases blank_valueEnds hb ht with h | ⟨d, r, h, hd⟩ <;> rw [h]
  · simp
  · simp only [List.head?_cons]
    intro hh
    cases hh
    cases hd

theorem reads_basic {o v : Str} (h : BasicBody HexEscape o v) : ReadsAs q (34 :: (o ++ [34])) (.str v) := by
  intro n b tail e a l hn hb ht
  obtain ⟨n, rfl⟩ := succ_of_lt hn
  obtain ⟨e', h⟩ := parseString_body (basicBody_code h) (b ++ tail) [] a l (head_ne_34 hb ht)
  have e1 : 34 :: (o ++ [34]) ++ (b ++ tail) = 34 :: (o ++ 34 :: (b ++ tail)) := by simp
  rw [e1]
  exact ⟨_, _, by rw [parseValue_dq, restoring_ok h], .of (by unfold Holds; exact ⟨_, _, _, rfl⟩), rfl, rfl, .inl ⟨rfl, rfl⟩, fun _ => rfl⟩

theorem plainLiteral_ok {s : Str} (h : PlainLiteral s) : ∀ c ∈ s, refusedInString .sll c = false ∧ c ≠ 39 := by
  intro c hc
  refine ⟨?_, (h c hc).2⟩
  have := (h c hc).1
  rw [← refused_slb'] at this
  exact this

theorem reads_literal {s : Str} (h : PlainLiteral s) : ReadsAs q (39 :: (s ++ [39])) (.str s) := by
  intro n b tail e a l hn hb ht
  obtain ⟨n, rfl⟩ := succ_of_lt hn
  obtain ⟨e', h⟩ := parseString_sll s (b ++ tail) [] a l (plainLiteral_ok h) (head_ne_39 hb ht)
  have e1 : 39 :: (s ++ [39]) ++ (b ++ tail) = 39 :: (s ++ 39 :: (b ++ tail)) := by simp
  rw [e1]
  exact ⟨_, _, by rw [parseValue_sq, restoring_ok h], .of (by unfold Holds; exact ⟨_, _, _, rfl⟩), rfl, rfl, .inl ⟨rfl, rfl⟩, fun _ => rfl⟩

/-! ## Multi-line strings -/

/-- What the code reads between the delimiters, runs of quotes at once. -/
inductive MlBody (delim : StrType) : Str → Str → Prop
  | nil : MlBody delim [] []
  | char (c o v) : refusedInString delim c = false → c ≠ delim.unit → (delim.isBasic = true → c ≠ 92) →
      MlBody delim o v → MlBody delim (c :: o) (c :: v)
  | esc (x w o v) : delim.isBasic = true → x ≠ [] →
      (∀ p e a l, parseEscapedChar true ⟨x ++ (o ++ delim.unit :: p), e, a, l⟩ = .ok w ⟨o ++ delim.unit :: p, e ++ x, a, l⟩) →
      MlBody delim o v → MlBody delim (92 :: (x ++ o)) (w ++ v)
  | quotes (k o v) : 1 ≤ k → k ≤ 2 → o.head? ≠ some delim.unit → MlBody delim o v →
      MlBody delim (List.replicate k delim.unit ++ o) (List.replicate k delim.unit ++ v)

theorem mlBody_nil {delim : StrType} {v : Str} (h : MlBody delim [] v) : v = [] := by
  generalize ho : ([] : Str) = o at h
  cases h with
  | nil => rfl
  | char => simp at ho
  | esc => simp at ho
  | quotes k s o hk1 hk2 hh hso =>
    have := congrArg List.length ho
    simp at this
    omega

theorem strLoop_mlBody {delim : StrType} (hm : delim.isMultiline = true) {o v : Str} (ho : MlBody delim o v) :
    ∀ (n : Nat) (value tail e : Str) (a : List Key) (l : List Loss), o.length < n →
    tail.head? ≠ some delim.unit →
    strLoop delim n value false ⟨o ++ (List.replicate 3 delim.unit ++ tail), e, a, l⟩ =
      .ok (.str delim (value ++ v) (e ++ o) {}) ⟨tail, e ++ o ++ List.replicate 3 delim.unit, a, l⟩ := by
  induction ho with
  | nil =>
    intro n value tail e a l hn ht
    obtain ⟨n, rfl⟩ : ∃ m, n = m + 1 := ⟨n - 1, by simp at hn; omega⟩
    have := strLoop_close hm n value tail e a l 0 (by omega) ht
    simpa using this
  | char c o v h1 h2 h3 _ ih =>
    intro n value tail e a l hn ht
    simp at hn
    obtain ⟨n, rfl⟩ : ∃ m, n = m + 1 := ⟨n - 1, by omega⟩
    obtain ⟨y, r, hyr⟩ := exists_cons_append o delim.unit (List.replicate 2 delim.unit ++ tail)
    have hyr' : o ++ (List.replicate 3 delim.unit ++ tail) = y :: r := by
      rw [← hyr]; simp [List.replicate_succ]
    simp only [List.cons_append, hyr']
    rw [strLoop_char n value c y r e a l h1 h2 h3, ← hyr', ih n _ tail _ a l (by omega) ht]
    simp
  | esc x w o v hb hx hp _ ih =>
    intro n value tail e a l hn ht
    have hxl : 1 ≤ x.length := List.length_pos_iff.2 hx
    simp only [List.length_append, List.length_cons] at hn
    obtain ⟨n, rfl⟩ : ∃ m, n = m + 2 := ⟨n - 2, by omega⟩
    have hp' := hp (List.replicate 2 delim.unit ++ tail) (e ++ [92]) a l
    have e3 : delim.unit :: (List.replicate 2 delim.unit ++ tail) = List.replicate 3 delim.unit ++ tail := by
      simp [List.replicate_succ]
    rw [e3] at hp'
    have hi := ih n (value ++ w) tail (e ++ [92] ++ x) a l (by omega) ht
    rw [List.cons_append, List.append_assoc]
    obtain ⟨y, r, hyr⟩ : ∃ y r, x ++ (o ++ (List.replicate 3 delim.unit ++ tail)) = y :: r := by
      obtain ⟨y, r, rfl⟩ := List.exists_cons_of_ne_nil hx
      exact ⟨y, _, rfl⟩
    rw [hyr] at hp' ⊢
    rw [strLoop]
    have h92 : ¬ ((92 : Nat) = delim.unit) := fun h => unit_ne_92 h.symm
    simp [refused_92, h92, hb]
    rw [strLoop]
    simp only [getSt_bind, Bool.not_true, Bool.false_and, Bool.false_eq_true, if_false, hb, Bool.and_self, if_true, hm]
    rw [P.bind_def, hp']
    dsimp only
    rw [hi]
    simp
  | quotes k o v hk1 hk2 hh hso ih =>
    intro n value tail e a l hn ht
    simp only [List.length_append, List.length_replicate] at hn
    obtain ⟨n, rfl⟩ : ∃ m, n = m + 1 := ⟨n - 1, by omega⟩
    cases o with
    | nil =>
      have hs := mlBody_nil hso
      subst hs
      have := strLoop_close hm n value tail e a l k hk2 ht
      rw [← List.replicate_append_replicate] at this
      simpa [List.append_assoc] using this
    | cons y o =>
      have hy : y ≠ delim.unit := by simpa using hh
      have hx : (y :: o ++ (List.replicate 3 delim.unit ++ tail)).head? ≠ some delim.unit := by simpa using hy
      have h1 := takeWhile_quotes delim.unit k _ hx
      have h2 := dropWhile_quotes delim.unit k _ hx
      rw [List.append_assoc]
      rw [strLoop]
      have hc : (St.mk (List.replicate k delim.unit ++ (y :: o ++ (List.replicate 3 delim.unit ++ tail))) e a l).cur
          = delim.unit := by
        obtain ⟨k, rfl⟩ : ∃ m, k = m + 1 := ⟨k - 1, by omega⟩
        simp [List.replicate_succ, St.cur]
      simp only [getSt_bind, hc, refused_unit, hm]
      simp only [Bool.not_false, Bool.and_false, Bool.false_eq_true, if_false, Bool.true_and, decide_true, if_true,
        extract_bind, skip_bind, h1, h2, List.length_replicate]
      have hlt : k < 3 := by omega
      simp only [hlt, if_true]
      rw [ih n _ tail _ a l (by omega) ht]
      simp

/-- a multi-line string with the line break after the opening delimiter -/
theorem parseString_mlBody {d : StrType} (hd : d.isMultiline = false) {nl o v : Str}
    (hn : nl = [] ∧ ¬ StartsWithNewline o ∨ Newline nl) (hh : MlBody d.toggle o v) (tail e : Str) (a : List Key) (l : List Loss)
    (ht : tail.head? ≠ some d.unit) :
    ∃ e', parseString d ⟨List.replicate 3 d.unit ++ (nl ++ (o ++ (List.replicate 3 d.unit ++ tail))), e, a, l⟩ =
      .ok (.str d.toggle v (nl ++ o) {}) ⟨tail, e', a, l⟩ := by
  have hu : d.toggle.unit = d.unit := by cases d <;> rfl
  have hm : d.toggle.isMultiline = true := by cases d <;> simp_all [StrType.toggle, StrType.isMultiline]
  have hf : firstNl (nl ++ o) = nl ∧ dropFirstNl (nl ++ o) = o := by
    rcases hn with ⟨rfl, hs⟩ | rfl | rfl
    · rw [List.nil_append]
      rcases firstNl_cases o with ⟨r, rfl⟩ | ⟨r, rfl⟩ | ⟨h1, h2, _⟩
      · exact absurd (.inl ⟨r, rfl⟩) hs
      · exact absurd (.inr ⟨r, rfl⟩) hs
      · exact ⟨h1, h2⟩
    · exact ⟨rfl, rfl⟩
    · exact ⟨rfl, rfl⟩
  refine ⟨(nl ++ o) ++ List.replicate 3 d.unit, ?_⟩
  rw [← List.append_assoc nl]
  generalize hO : nl ++ o = O at *
  unfold parseString
  obtain ⟨y, r, hyr⟩ := exists_cons_append O d.unit (List.replicate 2 d.unit ++ tail)
  have hyr' : O ++ (List.replicate 3 d.unit ++ tail) = y :: r := by
    rw [← hyr]; simp [List.replicate_succ]
  rw [hyr']
  simp [List.replicate_succ, strBody]
  rw [← hyr, ← hu, P.bind_def, skipFirstNl_ml hm]
  simp only [getSt_bind]
  have e1 : dropFirstNl O ++ d.toggle.unit :: (List.replicate 2 d.toggle.unit ++ tail) =
      o ++ (List.replicate 3 d.toggle.unit ++ tail) := by rw [hf.2]; simp [List.replicate_succ]
  rw [e1, strLoop_mlBody hm hh _ _ _ _ _ _ (by simp; omega) (by rw [hu]; exact ht), hf.1]
  simp [List.replicate_succ, hO]

/-! ## The bodies of the specification -/

theorem parseEscaped_simple {x c : Nat} (h : (x, c) ∈ simpleEscapes) (y r e a l) :
    parseEscapedChar true ⟨x :: y :: r, e, a, l⟩ = .ok [c] ⟨y :: r, e ++ [x], a, l⟩ := by
  simp only [simpleEscapes, List.mem_cons, Prod.mk.injEq, List.not_mem_nil, or_false] at h
  rcases h with ⟨rfl, rfl⟩ | ⟨rfl, rfl⟩ | ⟨rfl, rfl⟩ | ⟨rfl, rfl⟩ | ⟨rfl, rfl⟩ | ⟨rfl, rfl⟩ | ⟨rfl, rfl⟩ <;> rfl

theorem parseEscaped_uni {x n c : Nat} {ds : Str} (hx : (x = 117 ∧ n = 4) ∨ (x = 85 ∧ n = 8)) (hl : ds.length = n)
    (hu : codeUni n ds c) (y r e a l) :
    parseEscapedChar true ⟨x :: (ds ++ y :: r), e, a, l⟩ = .ok [c] ⟨y :: r, e ++ x :: ds, a, l⟩ := by
  have hp : peekUnicode n (ds ++ y :: r) = some c := by rw [peekUnicode_ext n ds r hl y]; exact hu
  have hmain : parseEscapedChar true ⟨x :: (ds ++ y :: r), e, a, l⟩ =
      (match peekUnicode n (ds ++ y :: r) with
        | some u => (do stepN (n + 1); return [u] : P Str)
        | none => fail .invalidUnicode) ⟨x :: (ds ++ y :: r), e, a, l⟩ := by
    rcases hx with ⟨rfl, rfl⟩ | ⟨rfl, rfl⟩ <;> rfl
  rw [hmain, hp]
  subst hl
  simp

theorem parseEscaped_fold {w X : Str} (hw : ∀ c ∈ w, isWs c = true) (hn : 10 ∈ w) (hne : X ≠ []) (hX : ∀ c r, X = c :: r → isWs c = false) (e a l) :
    parseEscapedChar true ⟨w ++ X, e, a, l⟩ = .ok [] ⟨X, e ++ w, a, l⟩ := by
  obtain ⟨y, r, rfl⟩ := List.exists_cons_of_ne_nil hne
  obtain ⟨t1, t2⟩ := takeWhile_halt hw (hX y r rfl) r
  have hcur : isWs (St.mk (w ++ y :: r) e a l).cur = true := by
    rcases w with _ | ⟨c, w⟩
    · cases hn
    · exact hw c (by simp)
  have hnl : hasNl w = true := by
    unfold hasNl
    simpa using hn
  unfold parseEscapedChar
  simp only [getSt_bind, hcur, Bool.and_self, if_true, skip_bind, t1, t2, hnl]
  simp

theorem blanksNl_ws {w : Str} (h : BlanksAndNewlines w) : ∀ c ∈ w, isWs c = true := by
  induction h with
  | nil => intro c hc; cases hc
  | blank c s hc _ ih =>
    intro x hx
    rcases List.mem_cons.1 hx with rfl | hx
    · rcases hc with rfl | rfl <;> rfl
    · exact ih x hx
  | newline nl s hn _ ih =>
    intro x hx
    rcases List.mem_append.1 hx with hx | hx
    · rcases hn with rfl | rfl
      · simp at hx; subst hx; rfl
      · simp at hx; rcases hx with rfl | rfl <;> rfl
    · exact ih x hx

theorem notControl_ml {c : Nat} (h : NotControl c) : refusedInString .mlb c = false ∧ refusedInString .mll c = false := by
  have h1 : ¬ (Control c ∧ c ≠ 9) := h
  simp only [Control] at h1
  constructor <;> (simp [refusedInString, isCtrl, StrType.isMultiline]; omega)

theorem newline_body {delim : StrType} (hm : delim.isMultiline = true) {nl o v : Str} (hn : Newline nl) (h : MlBody delim o v) :
    MlBody delim (nl ++ o) (nl ++ v) := by
  have h10 : refusedInString delim 10 = false := by cases delim <;> first | rfl | cases hm
  have h13 : refusedInString delim 13 = false := by cases delim <;> first | rfl | cases hm
  have hu : 10 ≠ delim.unit ∧ 13 ≠ delim.unit := by cases delim <;> decide
  rcases hn with rfl | rfl
  · exact .char 10 o v h10 hu.1 (fun _ => by omega) h
  · exact .char 13 _ _ h13 hu.2 (fun _ => by omega) (.char 10 o v h10 hu.1 (fun _ => by omega) h)

/-- A text after `k` quotes: further quotes, then a text that does not begin with a quote. -/
def Runs (delim : StrType) (k : Nat) (o v : Str) : Prop :=
  ∃ j o' v', o = List.replicate j delim.unit ++ o' ∧ v = List.replicate j delim.unit ++ v' ∧ j + k ≤ 2 ∧
    o'.head? ≠ some delim.unit ∧ MlBody delim o' v'

theorem runs_body {delim : StrType} {o v : Str} (h : Runs delim 0 o v) : MlBody delim o v := by
  obtain ⟨j, o', v', rfl, rfl, h1, h2, h3⟩ := h
  rcases j with _ | j
  · exact h3
  · exact .quotes _ _ _ (by omega) (by omega) h2 h3

theorem runs_zero {delim : StrType} {k : Nat} (hk : k ≤ 2) {o v : Str} (hh : o.head? ≠ some delim.unit) (h : MlBody delim o v) :
    Runs delim k o v := ⟨0, o, v, rfl, rfl, by omega, hh, h⟩

theorem basic_runs {k : Nat} {o v : Str} (h : MultilineBasic k o v) : k ≤ 2 → Runs .mlb k o v := by
  induction h with
  | nil k => intro hk; exact runs_zero hk (by simp) .nil
  | char k c o v h1 h2 h3 _ ih =>
    intro hk
    exact runs_zero hk (by simpa [StrType.unit] using h2) (.char c o v (notControl_ml h1).1 h2 (fun _ => h3) (runs_body (ih (by omega))))
  | newline k nl o v hn _ ih =>
    intro hk
    refine runs_zero hk ?_ (newline_body rfl hn (runs_body (ih (by omega))))
    rcases hn with rfl | rfl <;> simp [StrType.unit]
  | quote k o v hk2 _ ih =>
    intro hk
    obtain ⟨j, o', v', rfl, rfl, h1, h2, h3⟩ := ih (by omega)
    exact ⟨j + 1, o', v', rfl, rfl, by omega, h2, h3⟩
  | esc k x c o v hx _ ih =>
    intro hk
    refine runs_zero hk (by simp [StrType.unit]) (.esc [x] [c] o v rfl (by simp) (fun p e a l => ?_) (runs_body (ih (by omega))))
    obtain ⟨y, r, hyr⟩ := exists_cons_append o StrType.mlb.unit p
    rw [hyr]
    exact parseEscaped_simple hx y r e a l
  | uni4 k ds c o v hx _ ih =>
    intro hk
    refine runs_zero hk (by simp [StrType.unit]) (.esc (117 :: ds) [c] o v rfl (by simp) (fun p e a l => ?_) (runs_body (ih (by omega))))
    obtain ⟨y, r, hyr⟩ := exists_cons_append o StrType.mlb.unit p
    rw [hyr]
    exact parseEscaped_uni (.inl ⟨rfl, rfl⟩) hx.1 (hexEscape_code hx (.inl rfl)) y r e a l
  | uni8 k ds c o v hx _ ih =>
    intro hk
    refine runs_zero hk (by simp [StrType.unit]) (.esc (85 :: ds) [c] o v rfl (by simp) (fun p e a l => ?_) (runs_body (ih (by omega))))
    obtain ⟨y, r, hyr⟩ := exists_cons_append o StrType.mlb.unit p
    rw [hyr]
    exact parseEscaped_uni (.inr ⟨rfl, rfl⟩) hx.1 (hexEscape_code hx (.inr rfl)) y r e a l
  | fold k b nl w o v hb hn hw ho _ ih =>
    intro hk
    have e1 : b ++ (nl ++ (w ++ o)) = (b ++ (nl ++ w)) ++ o := by simp
    have e2 : v = [] ++ v := rfl
    rw [e1, e2]
    refine runs_zero hk (by simp [StrType.unit]) (.esc _ [] o v rfl (by rcases hn with rfl | rfl <;> simp) (fun p e a l => ?_) (runs_body (ih (by omega))))
    refine parseEscaped_fold ?_ (by rcases hn with rfl | rfl <;> simp) (by simp) ?_ e a l
    · intro c hc
      rcases List.mem_append.1 hc with hc | hc
      · rcases hb c hc with rfl | rfl <;> rfl
      rcases List.mem_append.1 hc with hc | hc
      · rcases hn with rfl | rfl
        · simp at hc; subst hc; rfl
        · simp at hc; rcases hc with rfl | rfl <;> rfl
      · exact blanksNl_ws hw c hc
    · intro c r hcr
      rcases o with _ | ⟨d, o⟩
      · cases hcr; rfl
      · cases hcr
        obtain ⟨g1, g2, g3, g4⟩ := ho c rfl
        simp [isWs, isSpaces, isNl, g1, g2, g3, g4]

theorem literal_runs {k : Nat} {o : Str} (h : MultilineLiteral k o) : k ≤ 2 → Runs .mll k o o := by
  induction h with
  | nil k => intro hk; exact runs_zero hk (by simp) .nil
  | char k c o h1 h2 _ ih =>
    intro hk
    exact runs_zero hk (by simpa [StrType.unit] using h2) (.char c o o (notControl_ml h1).2 h2 (fun h => by cases h) (runs_body (ih (by omega))))
  | newline k nl o hn _ ih =>
    intro hk
    refine runs_zero hk ?_ (newline_body rfl hn (runs_body (ih (by omega))))
    rcases hn with rfl | rfl <;> simp [StrType.unit]
  | quote k o hk2 _ ih =>
    intro hk
    obtain ⟨j, o', v', h0, h0', h1, h2, h3⟩ := ih (by omega)
    refine ⟨j + 1, o', v', ?_, ?_, by omega, h2, h3⟩
    · rw [h0]; rfl
    · conv => lhs; rw [h0']
      rfl

theorem reads_mlBasic {nl o v : Str} (hnl : nl = [] ∧ ¬ StartsWithNewline o ∨ Newline nl) (h : MultilineBasic 0 o v) :
    ReadsAs q ([34, 34, 34] ++ (nl ++ (o ++ [34, 34, 34]))) (.str v) := by
  intro n b tail e a l hn hb ht
  obtain ⟨n, rfl⟩ := succ_of_lt hn
  obtain ⟨e', h⟩ := parseString_mlBody (d := .slb) rfl hnl (runs_body (basic_runs h (by omega))) (b ++ tail) [] a l (head_ne_34 hb ht)
  have e1 : [34, 34, 34] ++ (nl ++ (o ++ [34, 34, 34])) ++ (b ++ tail) =
    List.replicate 3 34 ++ (nl ++ (o ++ (List.replicate 3 34 ++ (b ++ tail)))) := by simp [List.replicate]
  rw [e1]
  exact ⟨_, _, by rw [show List.replicate 3 34 ++ (nl ++ (o ++ (List.replicate 3 34 ++ (b ++ tail)))) = 34 :: (List.replicate 2 34 ++ (nl ++ (o ++ (List.replicate 3 34 ++ (b ++ tail))))) from rfl, parseValue_dq]; exact restoring_ok h, .of (by unfold Holds; exact ⟨_, _, _, rfl⟩), rfl, rfl, .inl ⟨rfl, rfl⟩, fun _ => rfl⟩

theorem reads_mlLiteral {nl o : Str} (hnl : nl = [] ∧ ¬ StartsWithNewline o ∨ Newline nl) (h : MultilineLiteral 0 o) :
    ReadsAs q ([39, 39, 39] ++ (nl ++ (o ++ [39, 39, 39]))) (.str o) := by
  intro n b tail e a l hn hb ht
  obtain ⟨n, rfl⟩ := succ_of_lt hn
  obtain ⟨e', h⟩ := parseString_mlBody (d := .sll) rfl hnl (runs_body (literal_runs h (by omega))) (b ++ tail) [] a l (head_ne_39 hb ht)
  have e1 : [39, 39, 39] ++ (nl ++ (o ++ [39, 39, 39])) ++ (b ++ tail) =
    List.replicate 3 39 ++ (nl ++ (o ++ (List.replicate 3 39 ++ (b ++ tail)))) := by simp [List.replicate]
  rw [e1]
  exact ⟨_, _, by rw [show List.replicate 3 39 ++ (nl ++ (o ++ (List.replicate 3 39 ++ (b ++ tail)))) = 39 :: (List.replicate 2 39 ++ (nl ++ (o ++ (List.replicate 3 39 ++ (b ++ tail))))) from rfl, parseValue_sq]; exact restoring_ok h, .of (by unfold Holds; exact ⟨_, _, _, rfl⟩), rfl, rfl, .inl ⟨rfl, rfl⟩, fun _ => rfl⟩

/-- every string text is read as the string it denotes -/
theorem reads_string {s v : Str} (h : StringText s v) : ReadsAs q s (.str v) := by
  cases h with
  | basic o v h => exact reads_basic h
  | literal s h => exact reads_literal h
  | multilineBasic nl o v hn h => exact reads_mlBasic hn h
  | multilineLiteral nl s hn h => exact reads_mlLiteral hn h

end Tomlkit
