import Verif.Proofs.Reads
import Verif.Spec.Floats
/-!
# Float texts are read as floats
-/
namespace Tomlkit
open _root_.Spec Tomlkit.Spec

/-- the characters of a float text -/
def NumC (c : Chr) : Prop := Dec c ∨ c = 46 ∨ c = 101 ∨ c = 43 ∨ c = 45

theorem expText_chars {s : Str} (h : ExpText s) : ∀ c ∈ s, NumC c := by
  cases h with
  | mk sg ds hs hd =>
    intro c hc
    rcases List.mem_cons.1 hc with rfl | hc
    · exact .inr (.inr (.inl rfl))
    rcases List.mem_append.1 hc with hc | hc
    · rcases hs with rfl | rfl | rfl
      · cases hc
      · simp at hc; exact .inr (.inr (.inr (.inl hc)))
      · simp at hc; exact .inr (.inr (.inr (.inr hc)))
    · exact .inl (hd.2 c hc)

theorem floatBody_chars {s : Str} (h : FloatBody s) : ∀ c ∈ s, NumC c := by
  intro c hc
  cases h with
  | point ip fp ex hi hz hf he =>
    rcases List.mem_append.1 hc with hc | hc
    · exact .inl (hi.2 c hc)
    rcases List.mem_cons.1 hc with rfl | hc
    · exact .inr (.inl rfl)
    rcases List.mem_append.1 hc with hc | hc
    · exact .inl (hf.2 c hc)
    rcases he with rfl | he
    · cases hc
    · exact expText_chars he c hc
  | exp ip ex hi hz he =>
    rcases List.mem_append.1 hc with hc | hc
    · exact .inl (hi.2 c hc)
    · exact expText_chars he c hc

theorem numC_range {c : Chr} (h : NumC c) : 32 < c ∧ c < 127 ∧ c ≠ 95 ∧ lowerAscii c = c ∧ isValueEnd c = false ∧ c ≠ 58 ∧ c ≠ 10 := by
  unfold NumC Dec at h
  refine ⟨by omega, by omega, by omega, ?_, ?_, by omega, by omega⟩
  · unfold lowerAscii
    rw [if_neg]
    simp only [Bool.and_eq_true, decide_eq_true_eq]; omega
  · simp only [isValueEnd, Bool.or_eq_false_iff, beq_eq_false_iff_ne]
    omega

theorem numClean_id {s : Str} (h : ∀ c ∈ s, NumC c) : numClean s = s := by
  unfold numClean
  have := dropUnderscores_noUnderscore (numDigitClass s) none s [] (fun c hc => (numC_range (h c hc)).2.2.1)
  rw [List.append_nil] at this
  rw [this, dropUnderscores, List.append_nil]
  conv => rhs; rw [← List.map_id s]
  exact List.map_congr_left fun c hc => (numC_range (h c hc)).2.2.2.1

theorem intDigits_chars {base : Nat} : ∀ (s : Str) (b : Bool) (acc n : Nat), intDigits base b acc s = some n →
    ∀ c ∈ s, c = 95 ∨ (baseDigit base c).isSome = true
  | [], _, _, _, _, c, hc => by cases hc
  | x :: r, b, acc, n, h, c, hc => by
    unfold intDigits at h
    split at h
    · rename_i hx
      split at h
      · rcases List.mem_cons.1 hc with rfl | hc
        · exact .inl hx
        · exact intDigits_chars r _ _ _ h c hc
      · cases h
    · split at h
      · rename_i d hd
        rcases List.mem_cons.1 hc with rfl | hc
        · right; rw [hd]; rfl
        · exact intDigits_chars r _ _ _ h c hc
      · cases h

theorem pyInt_none {s : Str} (hs : ∀ c ∈ s, NumC c) (hm : ∃ c ∈ s, c = 46 ∨ c = 101) : pyInt 10 s = none := by
  unfold pyInt
  rw [prep_id fun c hc => ⟨(numC_range (hs c hc)).1, (numC_range (hs c hc)).2.1⟩]
  have hd : ∃ c ∈ dropBasePrefix 10 (intSign s).2, c = 46 ∨ c = 101 := by
    have hb : ∀ x, dropBasePrefix 10 x = x := by
      intro x; unfold dropBasePrefix; split
      · rfl
      · rfl
    rw [hb]
    obtain ⟨c, hc, h⟩ := hm
    refine ⟨c, ?_, h⟩
    rcases s with _ | ⟨x, r⟩
    · cases hc
    · rcases List.mem_cons.1 hc with rfl | hc
      · unfold intSign; split
        · rename_i h0; cases h0; omega
        · rename_i h0; cases h0; omega
        · simp
      · unfold intSign; split
        · rename_i h0; injection h0 with _ h0; subst h0; assumption
        · rename_i h0; injection h0 with _ h0; subst h0; assumption
        · simp [hc]
  obtain ⟨c, hc, h⟩ := hd
  rcases hi : intDigits 10 false 0 (dropBasePrefix 10 (intSign s).2) with _ | n
  · dsimp only; rw [hi]
  · exfalso
    rcases intDigits_chars _ _ _ _ hi c hc with h1 | h1
    · omega
    · rcases h with rfl | rfl <;> revert h1 <;> decide

theorem dec_isDigit {c : Chr} (h : Dec c) : isDigit c = true := by
  unfold Dec at h; simp [isDigit]; omega

theorem takeDigits {d r : Str} (hd : ∀ c ∈ d, Dec c) (hr : ∀ c, r.head? = some c → isDigit c = false) :
    (d ++ r).takeWhile isDigit = d ∧ (d ++ r).dropWhile isDigit = r := by
  induction d with
  | nil =>
    rcases r with _ | ⟨c, r⟩
    · simp
    · have := hr c rfl
      simp [this]
  | cons x d ih =>
    have := ih fun c hc => hd c (by simp [hc])
    simp [dec_isDigit (hd x (by simp)), this]

theorem expOk {ex : Str} (h : ex = [] ∨ ExpText ex) : floatExpOk ex = true ∧ ∀ c, ex.head? = some c → isDigit c = false := by
  rcases h with rfl | h
  · exact ⟨rfl, fun c hc => by cases hc⟩
  · cases h with
    | mk sg ds hs hd =>
      refine ⟨?_, fun c hc => by cases hc; rfl⟩
      have hall : ds.all isDigit = true := List.all_eq_true.2 fun c hc => dec_isDigit (hd.2 c hc)
      have hne : ds.isEmpty = false := by simpa using hd.1
      have key : ∀ x : Str, x = 101 :: (sg ++ ds) → floatExpOk x = true := by
        rintro _ rfl
        unfold floatExpOk
        dsimp only
        rw [if_pos (by decide)]
        rcases hs with rfl | rfl | rfl
        · rcases ds with _ | ⟨d, r⟩
          · exact absurd rfl hd.1
          · have := hd.2 d (by simp)
            unfold Dec at this
            dsimp only [List.nil_append]
            split
            · rename_i h0; cases h0; omega
            · rename_i h0; cases h0; omega
            · rw [hall]; rfl
        · show (!ds.isEmpty && ds.all isDigit) = true
          rw [hall, hne]; rfl
        · show (!ds.isEmpty && ds.all isDigit) = true
          rw [hall, hne]; rfl
      exact key _ rfl

theorem intSign_dec {s : Str} (h : ∃ c r, s = c :: r ∧ Dec c) : intSign s = (false, s) := by
  obtain ⟨c, r, rfl, hc⟩ := h
  unfold Dec at hc
  unfold intSign
  split
  · rename_i h0; cases h0; omega
  · rename_i h0; cases h0; omega
  · rfl

theorem numSign_dec {s : Str} (h : ∃ c r, s = c :: r ∧ Dec c) : numSign s = ([], s) := by
  obtain ⟨c, r, rfl, hc⟩ := h
  unfold Dec at hc
  unfold numSign
  split
  · rename_i h0; cases h0; omega
  · rename_i h0; cases h0; omega
  · rfl

theorem decText_head {s : Str} (h : DecText s) : ∃ c r, s = c :: r ∧ Dec c := by
  rcases s with _ | ⟨c, r⟩
  · exact absurd rfl h.1
  · exact ⟨c, r, rfl, h.2 c (by simp)⟩

theorem floatBody_head {s : Str} (h : FloatBody s) : ∃ c r, s = c :: r ∧ Dec c := by
  cases h with
  | point ip fp ex hi hz hf he => obtain ⟨c, r, rfl, hc⟩ := decText_head hi; exact ⟨c, _, rfl, hc⟩
  | exp ip ex hi hz he => obtain ⟨c, r, rfl, hc⟩ := decText_head hi; exact ⟨c, _, rfl, hc⟩

theorem pyFloatOk_body {s : Str} (h : FloatBody s) : ∀ sg, sg = [] ∨ sg = [45] → pyFloatOk (sg ++ s) = true := by
  intro sg hsg
  have hch := floatBody_chars h
  have hpre : stripAscii (normNum (sg ++ s)) = sg ++ s := by
    apply prep_id
    intro c hc
    rcases List.mem_append.1 hc with hc | hc
    · rcases hsg with rfl | rfl
      · cases hc
      · simp at hc; omega
    · exact ⟨(numC_range (hch c hc)).1, (numC_range (hch c hc)).2.1⟩
  have hsig : (intSign (sg ++ s)).2 = s := by
    rcases hsg with rfl | rfl
    · rw [List.nil_append, intSign_dec (floatBody_head h)]
    · rfl
  unfold pyFloatOk
  rw [hpre, hsig]
  dsimp only
  split
  · rfl
  · cases h with
    | point ip fp ex hi hz hf he =>
      obtain ⟨h1, h2⟩ := takeDigits (r := 46 :: (fp ++ ex)) hi.2 (by intro c hc; cases hc; rfl)
      obtain ⟨h3, h4⟩ := takeDigits (r := ex) hf.2 (expOk he).2
      rw [h1, h2]
      simp only [h3, h4, (expOk he).1]
      have := hi.1
      simp [this]
    | exp ip ex hi hz he =>
      obtain ⟨h1, h2⟩ := takeDigits (r := ex) hi.2 (expOk (.inr he)).2
      rw [h1, h2]
      have h3 := (expOk (.inr he)).1
      have := hi.1
      cases he with
      | mk sg ds hs hd => simp [h3, this]

theorem endsDot_digit {a d : Str} (hd : DecText d) : endsDot (a ++ d) = false := by
  unfold endsDot
  rw [List.getLast?_append]
  rcases hl : d.getLast? with _ | c
  · rw [List.getLast?_eq_none_iff] at hl; exact absurd hl hd.1
  · have := hd.2 c (List.mem_of_getLast? hl)
    unfold Dec at this
    simp
    omega

theorem expText_end {ex : Str} (h : ExpText ex) : ∃ a d, ex = a ++ d ∧ DecText d := by
  cases h with
  | mk sg ds hs hd => exact ⟨101 :: sg, ds, by simp, hd⟩

theorem beforeE_dec {a ex : Str} (ha : ∀ c ∈ a, c ≠ 101) (he : ex = [] ∨ ExpText ex) : beforeE (a ++ ex) = a := by
  unfold beforeE
  have h1 : ∀ c ∈ a, (c != 101) = true := fun c hc => by simpa using ha c hc
  rw [List.takeWhile_append_of_pos h1]
  rcases he with rfl | he
  · simp
  · cases he with
    | mk sg ds hs hd => simp

theorem numRejected_body {s : Str} (h : FloatBody s) : ∀ sg, sg = [] ∨ sg = [45] → numRejected sg s = false := by
  intro sg hsg
  have hch := floatBody_chars h
  have hcl := numClean_id hch
  have hdot : endsDot s = false ∧ endsDot (beforeE s) = false := by
    cases h with
    | point ip fp ex hi hz hf he =>
      constructor
      · rcases he with rfl | he
        · have := endsDot_digit (a := ip ++ [46]) hf
          simpa using this
        · obtain ⟨a, d, rfl, hd⟩ := expText_end he
          have := endsDot_digit (a := ip ++ 46 :: (fp ++ a)) hd
          simpa using this
      · have e1 : ip ++ 46 :: (fp ++ ex) = (ip ++ [46] ++ fp) ++ ex := by simp
        rw [e1, beforeE_dec ?_ he]
        · exact endsDot_digit hf
        · intro c hc
          rcases List.mem_append.1 hc with hc | hc
          · rcases List.mem_append.1 hc with hc | hc
            · have := hi.2 c hc; unfold Dec at this; omega
            · simp at hc; omega
          · have := hf.2 c hc; unfold Dec at this; omega
    | exp ip ex hi hz he =>
      constructor
      · obtain ⟨a, d, rfl, hd⟩ := expText_end he
        have := endsDot_digit (a := ip ++ a) hd
        simpa using this
      · rw [beforeE_dec ?_ (.inr he)]
        · have := endsDot_digit (a := []) hi
          simpa using this
        · intro c hc; have := hi.2 c hc; unfold Dec at this; omega
  have h95 : s.contains 95 = false := by
    rcases hc : s.contains 95 with _ | _
    · rfl
    · have hm : 95 ∈ s := by simpa using hc
      have := (numC_range (hch _ hm)).2.2.1; omega
  -- the beginning
  have hst : ∃ c x r, s = c :: x :: r ∧ Dec c ∧ (c = 48 → x = 46 ∨ x = 101) := by
    have key : ∀ ip rest : Str, DecText ip → (ip = [48] ∨ ip.head? ≠ some 48) → (∃ y r, rest = y :: r ∧ (y = 46 ∨ y = 101)) →
        ∃ c x r, ip ++ rest = c :: x :: r ∧ Dec c ∧ (c = 48 → x = 46 ∨ x = 101) := by
      rintro ip rest hi hz ⟨y, r, rfl, hy⟩
      rcases hz with rfl | hz
      · exact ⟨48, y, r, rfl, ⟨by omega, by omega⟩, fun _ => hy⟩
      · obtain ⟨c, q, rfl, hc⟩ := decText_head hi
        have : c ≠ 48 := by simpa using hz
        rcases q with _ | ⟨x, q⟩
        · exact ⟨c, y, r, rfl, hc, fun h => absurd h this⟩
        · exact ⟨c, x, q ++ y :: r, rfl, hc, fun h => absurd h this⟩
    cases h with
    | point ip fp ex hi hz hf he => exact key _ _ hi hz ⟨46, _, rfl, .inl rfl⟩
    | exp ip ex hi hz he =>
      refine key _ _ hi hz ?_
      cases he with
      | mk sg ds hs hd => exact ⟨101, _, rfl, .inr rfl⟩
  unfold numRejected
  rw [hcl]
  dsimp only
  rw [hdot.1, hdot.2, h95]
  obtain ⟨c, x, r, rfl, hc, hx⟩ := hst
  unfold Dec at hc
  by_cases h48 : c = 48
  · subst h48
    rcases hx rfl with rfl | rfl <;> simp [List.isPrefixOf]
  · have h46 : c ≠ 46 := by omega
    simp [List.isPrefixOf, h48, h46, Ne.symm h48, Ne.symm h46]

theorem numBase_body {s : Str} (h : FloatBody s) : numBase s = 10 := by
  have hch := floatBody_chars h
  have hp : ∀ x : Chr, x ≠ 46 → x ≠ 101 → ¬ Dec x → x ≠ 43 → x ≠ 45 → ([48, x].isPrefixOf s) = false := by
    intro x h1 h2 h3 h4 h5
    rcases hh : [48, x].isPrefixOf s with _ | _
    · rfl
    · obtain ⟨t, ht⟩ := List.isPrefixOf_iff_prefix.1 hh
      have : x ∈ s := by rw [← ht]; simp
      rcases hch x this with h | h | h | h | h <;> contradiction
  unfold numBase
  rw [hp 98 (by omega) (by omega) (by unfold Dec; omega) (by omega) (by omega),
    hp 111 (by omega) (by omega) (by unfold Dec; omega) (by omega) (by omega),
    hp 120 (by omega) (by omega) (by unfold Dec; omega) (by omega) (by omega)]
  rfl

theorem parseNumber_float {s : Str} (h : FloatRepr s) : parseNumber s {} = some (.float s {} s) := by
  obtain ⟨sg, body, rfl, hsg, hb⟩ := h
  rcases hb with hb | rfl | rfl
  · have hn : numSign (sg ++ body) = (sg, body) := by
      rcases hsg with rfl | rfl
      · rw [List.nil_append, numSign_dec (floatBody_head hb)]
      · rfl
    have hi : pyInt 10 (sg ++ body) = none := by
      apply pyInt_none
      · intro c hc
        rcases List.mem_append.1 hc with hc | hc
        · rcases hsg with rfl | rfl
          · cases hc
          · simp at hc; exact .inr (.inr (.inr (.inr hc)))
        · exact floatBody_chars hb c hc
      · cases hb with
        | point ip fp ex hi hz hf he => exact ⟨46, by simp, .inl rfl⟩
        | exp ip ex hi hz he => cases he with | mk sg ds hs hd => exact ⟨101, by simp, .inr rfl⟩
    unfold parseNumber
    rw [hn]
    dsimp only
    rw [if_neg (by rw [numRejected_body hb _ hsg]; simp), numClean_id (floatBody_chars hb), numBase_body hb, hi]
    dsimp only
    rw [if_pos (pyFloatOk_body hb _ hsg)]
  · rcases hsg with rfl | rfl <;> rfl
  · rcases hsg with rfl | rfl <;> rfl

theorem matchLoose_float {s : Str} (h : FloatBody s) : matchLoose s = none := by
  have hch := floatBody_chars h
  have hne : s ≠ [] := by obtain ⟨c, r, rfl, _⟩ := floatBody_head h; simp
  unfold matchLoose
  have e1 : looseDate s = none := by
    have : ∃ d r, digits1 s = some (d, r) ∧ lit 45 r = none := by
      have key : ∀ ip rest : Str, DecText ip → (∃ y r, rest = y :: r ∧ (y = 46 ∨ y = 101)) →
          ∃ d r, digits1 (ip ++ rest) = some (d, r) ∧ lit 45 r = none := by
        rintro ip rest hi ⟨y, r, rfl, hy⟩
        obtain ⟨h1, h2⟩ := takeDigits (r := y :: r) hi.2 (by intro c hc; cases hc; rcases hy with rfl | rfl <;> rfl)
        refine ⟨ip, y :: r, ?_, ?_⟩
        · unfold digits1
          rw [h1, h2]
          dsimp only
          rw [if_neg hi.1]
        · unfold lit
          dsimp only
          rw [if_neg (by omega)]
      cases h with
      | point ip fp ex hi hz hf he => exact key _ _ hi ⟨46, _, rfl, .inl rfl⟩
      | exp ip ex hi hz he =>
        refine key _ _ hi ?_
        cases he with
        | mk sg ds hs hd => exact ⟨101, _, rfl, .inr rfl⟩
    obtain ⟨d, r, h1, h2⟩ := this
    unfold looseDate
    rw [h1]
    simp [h2]
  have e2 : looseTime s = none := by
    cases h : looseTime s with
    | none => rfl
    | some r => exact absurd rfl (numC_range (hch _ (looseTime_mem h))).2.2.2.2.2.1
  have e3 : atDollar s = false := by
    unfold atDollar
    simp [hne]
    rintro rfl
    exact (numC_range (hch 10 (by simp))).2.2.2.2.2.2 rfl
  simp [e1, e2, e3]

theorem float_value {s : Str} (h : FloatRepr s) (n : Nat) (tail e a l) (ht : ValueEnds tail) :
    parseValue (n + 1) ⟨s ++ tail, e, a, l⟩ = .ok (.float s {} s) ⟨tail, s, a, l⟩ := by
  have hp := parseNumber_float h
  obtain ⟨sg, body, rfl, hsg, hb⟩ := h
  have hv : ∀ c ∈ body, isValueEnd c = false := by
    rcases hb with hb | rfl | rfl
    · intro c hc; exact (numC_range (floatBody_chars hb c hc)).2.2.2.2.1
    · decide
    · decide
  rcases hsg with rfl | rfl
  · rw [List.nil_append] at hp ⊢
    rcases hb with hb | hb
    · obtain ⟨c, r, hcr, hc⟩ := floatBody_head hb
      have hm := matchLoose_float hb
      subst hcr
      exact parseValue_digit n hc e a l hv ht hm hp
    · obtain ⟨h1, h2⟩ := skip_value hv ht
      have hs : startsSpecialNumber (body ++ tail) = true := by
        have : ((body ++ tail).take 4).takeWhile (fun c => !isValueEnd c && c != 0) = body := by
          rcases ht with rfl | ⟨d, r, rfl, hd⟩
          · rcases hb with rfl | rfl <;> rfl
          · rcases hb with rfl | rfl <;> simp [List.takeWhile_cons, hd] <;> simp [isValueEnd]
        unfold startsSpecialNumber
        rw [this]
        rcases hb with rfl | rfl <;> simp
      have hcur : ∀ e, (St.mk (body ++ tail) e a l).cur ∈ [105, 110] := by
        rcases hb with rfl | rfl <;> intro e <;> simp [St.cur]
      have hcur' : ∃ x, x ∈ [105, 110] ∧ ∀ e, (St.mk (body ++ tail) e a l).cur = x := by
        rcases hb with rfl | rfl
        · exact ⟨105, by simp, fun _ => rfl⟩
        · exact ⟨110, by simp, fun _ => rfl⟩
      obtain ⟨x, hx, hcur'⟩ := hcur'
      generalize body ++ tail = X at *
      rw [parseValue]
      simp only [mark_bind, getSt_bind, hcur', hs]
      have h34 : x ≠ 34 ∧ x ≠ 39 ∧ x ≠ 116 ∧ x ≠ 102 ∧ x ≠ 91 ∧ x ≠ 123 := by simp at hx; omega
      simp [h34, h1, h2, hp]
  · refine parseValue_signed n (Or.inr rfl) e a l ?_ ht hp
    intro x hx
    rcases List.mem_cons.1 hx with rfl | hx
    · decide
    · exact hv x hx

theorem reads_float {q : Prop} {s : Str} (h : FloatRepr s) : ReadsAs q s (.float s) := by
  intro n b tail e a l hn hb ht
  obtain ⟨n, rfl⟩ := succ_of_lt hn
  refine ⟨_, _, float_value h n _ e a l (blank_valueEnds hb ht), ?_, rfl, rfl, .inl ⟨rfl, rfl⟩, fun _ => rfl⟩
  exact .of (by unfold Holds; exact ⟨_, _, rfl⟩)

end Tomlkit
