import Verif.Proofs.ReadFloat
import Verif.Spec.Toml
/-!
# The numbers of TOML are read as what they denote
-/
namespace Tomlkit
open _root_.Spec Tomlkit.Spec

variable {q : Prop}

theorem reads_integer {s : Str} {i : Int} (h : IntegerLiteral s i) : ReadsAs q s (.int i) := by
  intro n b tail e a l hn hb ht
  obtain ⟨n, rfl⟩ := succ_of_lt hn
  have hv := blank_valueEnds hb ht
  cases h with
  | decimal gs h hz => exact ⟨_, _, dec_value .none h hz n _ e a l hv, .of (by unfold Holds; exact ⟨_, _, rfl⟩), rfl, rfl, .inl ⟨rfl, rfl⟩, fun _ => rfl⟩
  | plus gs h hz => exact ⟨_, _, dec_value .plus h hz n _ e a l hv, .of (by unfold Holds; exact ⟨_, _, rfl⟩), rfl, rfl, .inl ⟨rfl, rfl⟩, fun _ => rfl⟩
  | minus gs h hz => exact ⟨_, _, dec_value .minus h hz n _ e a l hv, .of (by unfold Holds; exact ⟨_, _, rfl⟩), rfl, rfl, .inl ⟨rfl, rfl⟩, fun _ => rfl⟩
  | binary gs h => exact ⟨_, _, based_value .bin h n _ e a l hv, .of (by unfold Holds; exact ⟨_, _, rfl⟩), rfl, rfl, .inl ⟨rfl, rfl⟩, fun _ => rfl⟩
  | octal gs h => exact ⟨_, _, based_value .oct h n _ e a l hv, .of (by unfold Holds; exact ⟨_, _, rfl⟩), rfl, rfl, .inl ⟨rfl, rfl⟩, fun _ => rfl⟩
  | hex gs h => exact ⟨_, _, based_value .hex h n _ e a l hv, .of (by unfold Holds; exact ⟨_, _, rfl⟩), rfl, rfl, .inl ⟨rfl, rfl⟩, fun _ => rfl⟩

/-! ## Floats -/

theorem dropUnderscores_prev (p : Chr → Bool) (prev prev' : Option Chr) {r : Str} (hr : r.head? ≠ some 95) :
    dropUnderscores p prev r = dropUnderscores p prev' r := by
  rcases r with _ | ⟨c, r⟩
  · rfl
  · have hc : c ≠ 95 := by simpa using hr
    simp [dropUnderscores, hc]

theorem dropUnderscores_append {p : Chr → Bool} (hp : ∀ c, IsDigit 10 c → p c = true) {r : Str} (hr : r.head? ≠ some 95) :
    ∀ (gs : List Str), DigitGroups 10 gs → ∀ prev, dropUnderscores p prev (underscored gs ++ r) = gs.flatten ++ dropUnderscores p none r
  | [], h, _ => absurd rfl h.1
  | [g], h, prev => by
    have hg95 : ∀ c ∈ g, c ≠ 95 := fun c hc => by
      have := digit_range (h.2.2 g (by simp) c hc); omega
    simp only [underscored, List.flatten_cons, List.flatten_nil, List.append_nil]
    rw [dropUnderscores_noUnderscore p prev g _ hg95]
    congr 1
    exact dropUnderscores_prev _ _ _ hr
  | g :: g' :: gs, h, prev => by
    obtain ⟨h1, h2, h3⟩ := h
    have hr' := dropUnderscores_append hp hr (g' :: gs) ⟨by simp, fun x hx => h2 x (by simp [hx]), fun x hx => h3 x (by simp [hx])⟩ (some 95)
    have hg95 : ∀ c ∈ g, c ≠ 95 := fun c hc => by
      have := digit_range (h3 g (by simp) c hc); omega
    obtain ⟨_, _, y, t, he, hy, z, hz⟩ := underscored_head (gs := g' :: gs) (by simp) (fun x hx => h2 x (by simp [hx]))
    have hdy : p y = true := by
      apply hp
      have := (List.cons.inj he).1
      exact h3 g' (by simp) y (by rw [this, hy]; simp)
    simp only [underscored, List.append_assoc, List.cons_append]
    rw [dropUnderscores_noUnderscore p prev g _ hg95]
    obtain ⟨c, hc⟩ : ∃ c, g.getLast? = some c := by
      cases hh : g.getLast? with
      | none => simp at hh; exact absurd hh (h2 g (by simp))
      | some c => exact ⟨c, rfl⟩
    have hcm : c ∈ g := List.mem_of_getLast? hc
    have hpc : p c = true := hp c (h3 g (by simp) c hcm)
    rw [hc]
    rw [hz] at hr'
    simp only [List.cons_append, dropUnderscores, decide_true, hpc, Bool.true_and, hz, hdy, if_true] at hr' ⊢
    rw [hr']
    simp

theorem groups_dec {gs : List Str} (h : DigitGroups 10 gs) : DecText gs.flatten := by
  refine ⟨flatten_ne_nil h, fun c hc => ?_⟩
  have := flatten_digits h c hc
  exact (IsDigit10_iff c).1 this

theorem lower_dec {s : Str} (h : ∀ c ∈ s, NumC c) : s.map lowerAscii = s := by
  conv => rhs; rw [← List.map_id s]
  exact List.map_congr_left fun c hc => (numC_range (h c hc)).2.2.2.1

theorem lower_digits {s : Str} (h : DecText s) : s.map lowerAscii = s := lower_dec fun c hc => .inl (h.2 c hc)

/-- characters of a float literal before cleaning -/
def RawC (c : Chr) : Prop := NumC c ∨ c = 95 ∨ c = 69

theorem underscored_raw {gs : List Str} (h : DigitGroups 10 gs) : ∀ c ∈ underscored gs, Dec c ∨ c = 95 := by
  induction gs with
  | nil => intro c hc; simp [underscored] at hc
  | cons g gs ih =>
    intro c hc
    have hg : ∀ c ∈ g, Dec c := fun c hc => (IsDigit10_iff c).1 (h.2.2 g (by simp) c hc)
    rcases gs with _ | ⟨g', gs⟩
    · exact .inl (hg c hc)
    · simp only [underscored] at hc
      rcases List.mem_append.1 hc with hc | hc
      · exact .inl (hg c hc)
      rcases List.mem_cons.1 hc with rfl | hc
      · exact .inr rfl
      · exact ih ⟨by simp, fun x hx => h.2.1 x (by simp [hx]), fun x hx => h.2.2 x (by simp [hx])⟩ c hc

theorem exponent_raw {ex exc : Str} (h : ExponentText ex exc) : ∀ c ∈ ex, RawC c := by
  cases h with
  | mk e sg gs he hs hd =>
    intro c hc
    rcases List.mem_cons.1 hc with rfl | hc
    · rcases he with rfl | rfl
      · exact .inl (.inr (.inr (.inl rfl)))
      · exact .inr (.inr rfl)
    rcases List.mem_append.1 hc with hc | hc
    · rcases hs with rfl | rfl | rfl
      · cases hc
      · simp at hc; exact .inl (.inr (.inr (.inr (.inl hc))))
      · simp at hc; exact .inl (.inr (.inr (.inr (.inr hc))))
    · rcases underscored_raw hd c hc with h | h
      · exact .inl (.inl h)
      · exact .inr (.inl h)

theorem exponent_exp {ex exc : Str} (h : ExponentText ex exc) : ExpText exc := by
  cases h with
  | mk e sg gs he hs hd => exact .mk sg _ hs (groups_dec hd)

theorem exponent_head {ex exc : Str} (h : ExponentText ex exc) : ∃ e r, ex = e :: r ∧ (e = 101 ∨ e = 69) := by
  cases h with
  | mk e sg gs he hs hd => exact ⟨e, _, rfl, he⟩

theorem exponent_clean {p : Chr → Bool} (hp : ∀ c, IsDigit 10 c → p c = true) {ex exc : Str} (h : ExponentText ex exc) :
    (dropUnderscores p none ex).map lowerAscii = exc := by
  cases h with
  | mk e sg gs he hs hd =>
    have h1 : ∀ c ∈ e :: sg, c ≠ 95 := by
      intro c hc
      rcases List.mem_cons.1 hc with rfl | hc
      · omega
      · rcases hs with rfl | rfl | rfl
        · cases hc
        · simp at hc; omega
        · simp at hc; omega
    have := dropUnderscores_noUnderscore p none (e :: sg) (underscored gs) h1
    rw [List.cons_append] at this
    rw [this]
    have h2 := dropUnderscores_groups hp gs hd
    rw [h2]
    rw [List.map_append, lower_digits (groups_dec hd)]
    have h3 : (e :: sg).map lowerAscii = 101 :: sg := by
      rcases he with rfl | rfl <;> rcases hs with rfl | rfl | rfl <;> rfl
    rw [h3]
    rfl

/-- the beginning of the literal after the sign -/
def RawStart (s : Str) : Prop := ∃ c x r, s = c :: x :: r ∧ Dec c ∧ (c = 48 → x = 46 ∨ x = 101)

theorem rawStart_base {s : Str} (h : RawStart s) : numBase s = 10 ∧ numDigitClass s = isDigit := by
  obtain ⟨c, x, r, rfl, hc, hx⟩ := h
  have hp : ∀ y, y ≠ 46 → y ≠ 101 → ([48, y].isPrefixOf (c :: x :: r)) = false := by
    intro y h1 h2
    by_cases h48 : c = 48
    · subst h48
      have : ¬ y = x := by rcases hx rfl with rfl | rfl <;> assumption
      simp [List.isPrefixOf, this]
    · have : ¬ 48 = c := fun h => h48 h.symm
      simp [List.isPrefixOf, this]
  unfold numBase numDigitClass
  rw [hp 98 (by omega) (by omega), hp 111 (by omega) (by omega), hp 120 (by omega) (by omega)]
  exact ⟨rfl, rfl⟩

theorem pyFloatOk_signed {s : Str} (h : FloatBody s) : ∀ sg, sg = [] ∨ sg = [43] ∨ sg = [45] → pyFloatOk (sg ++ s) = true := by
  intro sg hsg
  rcases hsg with rfl | rfl | rfl
  · exact pyFloatOk_body h [] (.inl rfl)
  · have h1 := pyFloatOk_body h [] (.inl rfl)
    have hch := floatBody_chars h
    have hr : ∀ c ∈ s, 32 < c ∧ c < 127 := fun c hc => ⟨(numC_range (hch c hc)).1, (numC_range (hch c hc)).2.1⟩
    unfold pyFloatOk at h1 ⊢
    rw [List.nil_append, prep_id hr, intSign_dec (floatBody_head h)] at h1
    have hpre : stripAscii (normNum ([43] ++ s)) = [43] ++ s := by
      apply prep_id
      intro c hc
      rcases List.mem_append.1 hc with hc | hc
      · simp at hc; omega
      · exact hr c hc
    rw [hpre]
    exact h1
  · exact pyFloatOk_body h [45] (.inr rfl)

theorem endsDot_body {s : Str} (h : FloatBody s) : endsDot s = false ∧ endsDot (beforeE s) = false := by
  cases h with
  | point ip fp ex hi hz hf he =>
    constructor
    · rcases he with rfl | he
      · have := endsDot_digit (a := ip ++ [46]) hf
        simpa using this
      · obtain ⟨a, d, rfl, hd⟩ := expText_end he
        have := endsDot_digit (a := ip ++ 46 :: (fp ++ a)) hd
        simpa using this
    · have e1 : ip ++ 46 :: (fp ++ ex) = (ip ++ [46] ++ fp) ++ ex := by simp
      rw [e1, beforeE_dec ?_ he]
      · exact endsDot_digit hf
      · intro c hc
        rcases List.mem_append.1 hc with hc | hc
        · rcases List.mem_append.1 hc with hc | hc
          · have := hi.2 c hc; unfold Dec at this; omega
          · simp at hc; omega
        · have := hf.2 c hc; unfold Dec at this; omega
  | exp ip ex hi hz he =>
    constructor
    · obtain ⟨a, d, rfl, hd⟩ := expText_end he
      have := endsDot_digit (a := ip ++ a) hd
      simpa using this
    · rw [beforeE_dec ?_ (.inr he)]
      · have := endsDot_digit (a := []) hi
        simpa using this
      · intro c hc; have := hi.2 c hc; unfold Dec at this; omega

/-- a literal whose cleaned text is a float -/
theorem parseNumber_clean {sg raw s : Str} (hsg : sg = [] ∨ sg = [43] ∨ sg = [45]) (hb : FloatBody s) (hcl : numClean raw = s)
    (hst : RawStart raw) : parseNumber (sg ++ raw) {} = some (.float (sg ++ s) {} (sg ++ raw)) := by
  have hch := floatBody_chars hb
  have hhead : ∃ c r, raw = c :: r ∧ Dec c := by
    obtain ⟨c, x, r, rfl, hc, _⟩ := hst; exact ⟨c, _, rfl, hc⟩
  have hn : numSign (sg ++ raw) = (sg, raw) := by
    rcases hsg with rfl | rfl | rfl
    · rw [List.nil_append, numSign_dec hhead]
    · rfl
    · rfl
  have hi : pyInt 10 (sg ++ s) = none := by
    apply pyInt_none
    · intro c hc
      rcases List.mem_append.1 hc with hc | hc
      · rcases hsg with rfl | rfl | rfl
        · cases hc
        · simp at hc; exact .inr (.inr (.inr (.inl hc)))
        · simp at hc; exact .inr (.inr (.inr (.inr hc)))
      · exact hch c hc
    · cases hb with
      | point ip fp ex hi hz hf he => exact ⟨46, by simp, .inl rfl⟩
      | exp ip ex hi hz he => cases he with | mk sg ds hs hd => exact ⟨101, by simp, .inr rfl⟩
  have h95 : s.contains 95 = false := by
    rcases hc : s.contains 95 with _ | _
    · rfl
    · have hm : 95 ∈ s := by simpa using hc
      have := (numC_range (hch _ hm)).2.2.1; omega
  have hrej : numRejected sg raw = false := by
    unfold numRejected
    rw [hcl]
    dsimp only
    rw [(endsDot_body hb).1, (endsDot_body hb).2, h95]
    obtain ⟨c, x, r, rfl, hc, hx⟩ := hst
    unfold Dec at hc
    by_cases h48 : c = 48
    · subst h48
      rcases hx rfl with rfl | rfl <;> simp [List.isPrefixOf]
    · have h46 : c ≠ 46 := by omega
      simp [List.isPrefixOf, h48, h46, Ne.symm h48, Ne.symm h46]
  unfold parseNumber
  rw [hn]
  dsimp only
  rw [if_neg (by rw [hrej]; simp), hcl, (rawStart_base hst).1, hi]
  dsimp only
  rw [if_pos (pyFloatOk_signed hb _ hsg)]

/-- digits and underscores, then something else -/
theorem rawStart_of {ip : List Str} (hi : DigitGroups 10 ip) (hz : NoLeadingZero ip.flatten) {y : Chr} {r : Str}
    (hy : ip.flatten = [48] → y = 46 ∨ y = 101) : RawStart (underscored ip ++ y :: r) := by
  rcases dec_first hi hz with h | ⟨c, t, h, h1, h2⟩
  · refine ⟨48, y, r, by rw [h]; rfl, ⟨by omega, by omega⟩, fun _ => hy ?_⟩
    rcases hz with h0 | h0
    · exact h0
    · exfalso
      obtain ⟨_, _, z, t, he, hz', u, hu⟩ := underscored_head hi.1 hi.2.1
      rw [h] at hu
      have : z = 48 := (List.cons.inj hu).1.symm
      rw [he, hz', this] at h0
      exact h0 rfl
  · rcases t with _ | ⟨x, t⟩
    · exact ⟨c, y, r, by rw [h]; rfl, ⟨by omega, by omega⟩, fun h0 => by omega⟩
    · exact ⟨c, x, t ++ y :: r, by rw [h]; rfl, ⟨by omega, by omega⟩, fun h0 => by omega⟩

/-- after the sign: the raw text and the clean one -/
inductive RawFloat : Str → Str → Prop
  | point (ip fp) (hi : DigitGroups 10 ip) (hz : NoLeadingZero ip.flatten) (hf : DigitGroups 10 fp) :
      RawFloat (underscored ip ++ 46 :: underscored fp) (ip.flatten ++ 46 :: fp.flatten)
  | pointExp (ip fp ex exc) (hi : DigitGroups 10 ip) (hz : NoLeadingZero ip.flatten) (hf : DigitGroups 10 fp) (he : ExponentText ex exc) :
      RawFloat (underscored ip ++ 46 :: (underscored fp ++ ex)) (ip.flatten ++ 46 :: (fp.flatten ++ exc))
  | exp (ip ex exc) (hi : DigitGroups 10 ip) (hz : NoLeadingZero ip.flatten) (he : ExponentText ex exc)
      (h0 : ip.flatten = [48] → ex.head? = some 101) : RawFloat (underscored ip ++ ex) (ip.flatten ++ exc)

theorem digit_class : ∀ c, IsDigit 10 c → isDigit c = true := fun c h => (isDigit_iff c).2 ((IsDigit10_iff c).1 h)

theorem RawFloat.facts {raw s : Str} (h : RawFloat raw s) : RawStart raw ∧ FloatBody s ∧ numClean raw = s ∧ ∀ c ∈ raw, RawC c := by
  have hU : ∀ {gs : List Str}, DigitGroups 10 gs → ∀ c ∈ underscored gs, RawC c := fun hd c hc => by
    rcases underscored_raw hd c hc with h | h
    · exact .inl (.inl h)
    · exact .inr (.inl h)
  have h46 : ∀ (r : Str), dropUnderscores isDigit none (46 :: r) = 46 :: dropUnderscores isDigit none r ∨ r.head? = some 95 := by
    intro r
    by_cases hr : r.head? = some 95
    · exact .inr hr
    · left
      have : dropUnderscores isDigit none (46 :: r) = 46 :: dropUnderscores isDigit (some 46) r := by simp [dropUnderscores]
      rw [this, dropUnderscores_prev isDigit (some 46) none hr]
  have hhd : ∀ {gs : List Str} (r : Str), DigitGroups 10 gs → (underscored gs ++ r).head? ≠ some 95 := by
    intro gs r hd
    obtain ⟨g, _, y, t, he, hy, z, hz⟩ := underscored_head hd.1 hd.2.1
    rw [hz]
    have : Dec y := (IsDigit10_iff y).1 (hd.2.2 g (by rw [he]; simp) y (by rw [hy]; simp))
    unfold Dec at this
    simp; omega
  cases h with
  | point ip fp hi hz hf =>
    have hst : RawStart (underscored ip ++ 46 :: underscored fp) := rawStart_of hi hz fun _ => .inl rfl
    have hb : FloatBody (ip.flatten ++ 46 :: fp.flatten) := by
      have := FloatBody.point ip.flatten fp.flatten [] (groups_dec hi) hz (groups_dec hf) (.inl rfl)
      simpa using this
    refine ⟨hst, hb, ?_, ?_⟩
    · unfold numClean
      rw [(rawStart_base hst).2, dropUnderscores_append digit_class (by simp) ip hi]
      rcases h46 (underscored fp) with h | h
      · rw [h, dropUnderscores_groups digit_class fp hf]
        exact lower_dec (floatBody_chars hb)
      · have := hhd (gs := fp) [] hf
        rw [List.append_nil] at this
        exact absurd h this
    · intro c hc
      rcases List.mem_append.1 hc with hc | hc
      · exact hU hi c hc
      rcases List.mem_cons.1 hc with rfl | hc
      · exact .inl (.inr (.inl rfl))
      · exact hU hf c hc
  | pointExp ip fp ex exc hi hz hf he =>
    have hst : RawStart (underscored ip ++ 46 :: (underscored fp ++ ex)) := rawStart_of hi hz fun _ => .inl rfl
    have hb : FloatBody (ip.flatten ++ 46 :: (fp.flatten ++ exc)) :=
      FloatBody.point ip.flatten fp.flatten exc (groups_dec hi) hz (groups_dec hf) (.inr (exponent_exp he))
    refine ⟨hst, hb, ?_, ?_⟩
    · unfold numClean
      rw [(rawStart_base hst).2, dropUnderscores_append digit_class (by simp) ip hi]
      have hex : ex.head? ≠ some 95 := by
        obtain ⟨e, r, rfl, h⟩ := exponent_head he
        simp; omega
      rcases h46 (underscored fp ++ ex) with h | h
      · rw [h, dropUnderscores_append digit_class hex fp hf]
        simp only [List.map_append, List.map_cons]
        rw [exponent_clean digit_class he, lower_digits (groups_dec hi), lower_digits (groups_dec hf)]
        rfl
      · exact absurd h (hhd _ hf)
    · intro c hc
      rcases List.mem_append.1 hc with hc | hc
      · exact hU hi c hc
      rcases List.mem_cons.1 hc with rfl | hc
      · exact .inl (.inr (.inl rfl))
      rcases List.mem_append.1 hc with hc | hc
      · exact hU hf c hc
      · exact exponent_raw he c hc
  | exp ip ex exc hi hz he h0 =>
    have hex : ex.head? ≠ some 95 := by
      obtain ⟨e, r, rfl, h⟩ := exponent_head he
      simp; omega
    have hst : RawStart (underscored ip ++ ex) := by
      obtain ⟨e, r, rfl, h⟩ := exponent_head he
      exact rawStart_of hi hz fun h => .inr (by simpa using h0 h)
    have hb : FloatBody (ip.flatten ++ exc) := FloatBody.exp ip.flatten exc (groups_dec hi) hz (exponent_exp he)
    refine ⟨hst, hb, ?_, ?_⟩
    · unfold numClean
      rw [(rawStart_base hst).2, dropUnderscores_append digit_class hex ip hi, List.map_append, exponent_clean digit_class he, lower_digits (groups_dec hi)]
    · intro c hc
      rcases List.mem_append.1 hc with hc | hc
      · exact hU hi c hc
      · exact exponent_raw he c hc

theorem rawC_range {c : Chr} (h : RawC c) : isValueEnd c = false ∧ c ≠ 58 ∧ c ≠ 10 := by
  rcases h with h | rfl | rfl
  · have := numC_range h; exact ⟨this.2.2.2.2.1, this.2.2.2.2.2.1, this.2.2.2.2.2.2⟩
  · decide
  · decide

theorem matchLoose_raw {raw s : Str} (h : RawFloat raw s) : matchLoose raw = none := by
  obtain ⟨hst, _, _, hch⟩ := h.facts
  have hne : raw ≠ [] := by obtain ⟨c, x, r, rfl, _⟩ := hst; simp
  unfold matchLoose
  have e1 : looseDate raw = none := by
    -- the first run of digits is followed by no minus sign
    have key : ∀ (gs : List Str) (y : Chr) (r : Str), DigitGroups 10 gs → isDigit y = false → y ≠ 45 → y ≠ 95 →
        ∃ d r', digits1 (underscored gs ++ y :: r) = some (d, r') ∧ lit 45 r' = none := by
      intro gs y r hd hy h45 _
      rcases gs with _ | ⟨g, gs⟩
      · exact absurd rfl hd.1
      have hg : DecText g := ⟨hd.2.1 g (by simp), fun c hc => (IsDigit10_iff c).1 (hd.2.2 g (by simp) c hc)⟩
      obtain ⟨z, r', he, hz, hz45⟩ : ∃ z r', underscored (g :: gs) ++ y :: r = g ++ z :: r' ∧ isDigit z = false ∧ z ≠ 45 := by
        rcases gs with _ | ⟨g', gs⟩
        · exact ⟨y, r, rfl, hy, h45⟩
        · exact ⟨95, underscored (g' :: gs) ++ y :: r, by simp [underscored], rfl, by omega⟩
      rw [he]
      obtain ⟨h1, h2⟩ := takeDigits (r := z :: r') hg.2 (by intro c hc; cases hc; exact hz)
      refine ⟨g, z :: r', ?_, ?_⟩
      · unfold digits1
        rw [h1, h2]
        dsimp only
        rw [if_neg hg.1]
      · unfold lit
        dsimp only
        rw [if_neg hz45]
    have : ∃ d r, digits1 raw = some (d, r) ∧ lit 45 r = none := by
      cases h with
      | point ip fp hi hz hf => exact key ip 46 _ hi rfl (by omega) (by omega)
      | pointExp ip fp ex exc hi hz hf he => exact key ip 46 _ hi rfl (by omega) (by omega)
      | exp ip ex exc hi hz he h0 =>
        obtain ⟨e, r, rfl, h⟩ := exponent_head he
        exact key ip e r hi (by rcases h with rfl | rfl <;> rfl) (by omega) (by omega)
    obtain ⟨d, r, h1, h2⟩ := this
    unfold looseDate
    rw [h1]
    simp [h2]
  have e2 : looseTime raw = none := by
    cases h : looseTime raw with
    | none => rfl
    | some r => exact absurd rfl (rawC_range (hch _ (looseTime_mem h))).2.1
  have e3 : atDollar raw = false := by
    unfold atDollar
    simp [hne]
    rintro rfl
    exact (rawC_range (hch 10 (by simp))).2.2 rfl
  simp [e1, e2, e3]

theorem reads_rawFloat {sg raw s : Str} (hsg : sg = [] ∨ sg = [43] ∨ sg = [45]) (h : RawFloat raw s) :
    ReadsAs q (sg ++ raw) (.float (sg ++ s)) := by
  intro n b tail e a l hn hb ht
  obtain ⟨n, rfl⟩ := succ_of_lt hn
  obtain ⟨hst, hbody, hcl, hch⟩ := h.facts
  have hp := parseNumber_clean hsg hbody hcl hst
  have hv : ∀ c ∈ raw, isValueEnd c = false := fun c hc => (rawC_range (hch c hc)).1
  have hm := matchLoose_raw h
  have hx : parseValue (n + 1) ⟨sg ++ raw ++ (b ++ tail), e, a, l⟩ = .ok (.float (sg ++ s) {} (sg ++ raw)) ⟨b ++ tail, sg ++ raw, a, l⟩ := by
    obtain ⟨c, x, r, rfl, hc, _⟩ := hst
    rcases hsg with rfl | rfl | rfl
    · exact parseValue_digit n hc e a l hv (blank_valueEnds hb ht) hm hp
    · refine parseValue_signed n (Or.inl rfl) e a l (fun x hx => ?_) (blank_valueEnds hb ht) hp
      rcases List.mem_cons.1 hx with rfl | hx
      · decide
      · exact hv x hx
    · refine parseValue_signed n (Or.inr rfl) e a l (fun x hx => ?_) (blank_valueEnds hb ht) hp
      rcases List.mem_cons.1 hx with rfl | hx
      · decide
      · exact hv x hx
  exact ⟨_, _, hx, .of (by unfold Holds; exact ⟨_, _, rfl⟩), rfl, rfl, .inl ⟨rfl, rfl⟩, fun _ => rfl⟩

theorem reads_plusSpecial {w : Str} (hw : w = [105, 110, 102] ∨ w = [110, 97, 110]) : ReadsAs q (43 :: w) (.float (43 :: w)) := by
  intro n b tail e a l hn hb ht
  obtain ⟨n, rfl⟩ := succ_of_lt hn
  have hp : parseNumber (43 :: w) {} = some (.float (43 :: w) {} (43 :: w)) := by rcases hw with rfl | rfl <;> rfl
  have hv : ∀ c ∈ 43 :: w, isValueEnd c = false := by rcases hw with rfl | rfl <;> decide
  exact ⟨_, _, parseValue_signed n (Or.inl rfl) e a l hv (blank_valueEnds hb ht) hp, .of (by unfold Holds; exact ⟨_, _, rfl⟩), rfl, rfl, .inl ⟨rfl, rfl⟩, fun _ => rfl⟩

/-- every float literal is read as the number it denotes -/
theorem reads_floatLiteral {s t : Str} (h : FloatLiteral s t) : ReadsAs q s (.float t) := by
  cases h with
  | point sg ip fp hs hi hz hf => exact reads_rawFloat hs (.point ip fp hi hz hf)
  | pointExp sg ip fp ex exc hs hi hz hf he => exact reads_rawFloat hs (.pointExp ip fp ex exc hi hz hf he)
  | exp sg ip ex exc hs hi hz he h0 => exact reads_rawFloat hs (.exp ip ex exc hi hz he h0)
  | inf sg hs =>
    rcases hs with rfl | rfl | rfl
    · exact reads_float ⟨[], _, rfl, .inl rfl, .inr (.inl rfl)⟩
    · exact reads_plusSpecial (.inl rfl)
    · exact reads_float ⟨[45], _, rfl, .inr rfl, .inr (.inl rfl)⟩
  | nan sg hs =>
    rcases hs with rfl | rfl | rfl
    · exact reads_float ⟨[], _, rfl, .inl rfl, .inr (.inr rfl)⟩
    · exact reads_plusSpecial (.inr rfl)
    · exact reads_float ⟨[45], _, rfl, .inr rfl, .inr (.inr rfl)⟩

end Tomlkit
