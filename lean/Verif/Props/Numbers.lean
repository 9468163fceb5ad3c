import Verif.Proofs.Numbers
import Verif.Props.Strings
/-! # C06, C07, C08, C09: integers -/
namespace Tomlkit
open Spec

/-! ## C06 -/

/-- **C06.** For every integer `n`, the text of `item(n)` is parsed completely by `value()`, as an integer item
whose value is `n` and whose text is unchanged. -/
theorem C06_integers_survive (n : Int) :
    apiValue (intItem n).asString = .ok (.integer n {} (intItem n).asString) := by
  have h := int_value n (3 * (intText n).length + 9) [] [] [] [] (Or.inl rfl)
  have hs : (intItem n).asString = intText n := by simp [intItem, Item.asString]
  rw [hs]
  refine apiValue_of (e := intText n) (a := []) (l := []) ?_
  simpa [St.init, valueFuel, intItem] using h

/-- the item indeed carries `n`, and its text is the usual one -/
example : intItem (-120) = .integer (-120) {} (t!"-120") ∧ intItem 0 = .integer 0 {} (t!"0") := by
  constructor <;> rfl

/-! ## C07 -/

/-- **C07 (based literals).** `0b`, `0o` or `0x` followed by groups of digits of that base, with single
underscores between the groups, is read as the number the digits denote in that base; the text is kept. -/
theorem C07_based_literals (pre : Str) (base : Nat)
    (hb : (pre, base) ∈ [(t!"0b", 2), (t!"0o", 8), (t!"0x", 16)]) (gs : List Str) (hg : DigitGroups base gs) :
    apiValue (pre ++ underscored gs) = .ok (.integer (positional base gs.flatten) {} (pre ++ underscored gs)) := by
  have hbp : BasePrefix pre base := by
    simp only [List.mem_cons, Prod.mk.injEq, List.not_mem_nil, or_false] at hb
    rcases hb with ⟨rfl, rfl⟩ | ⟨rfl, rfl⟩ | ⟨rfl, rfl⟩
    · exact .bin
    · exact .oct
    · exact .hex
  have h := based_value hbp hg (3 * (pre ++ underscored gs).length + 9) [] [] [] [] (Or.inl rfl)
  refine apiValue_of (e := pre ++ underscored gs) (a := []) (l := []) ?_
  rw [List.append_nil] at h
  simpa [St.init, valueFuel] using h

/-- **C07 (decimal literals).** An optional sign and groups of decimal digits without superfluous leading zero is
read as the number the digits denote, with that sign; the text is kept. -/
theorem C07_decimal_literals (sign : Str) (hs : sign = [] ∨ sign = t!"+" ∨ sign = t!"-") (gs : List Str)
    (hg : DigitGroups 10 gs) (hz : NoLeadingZero gs.flatten) :
    apiValue (sign ++ underscored gs) =
      .ok (.integer (if sign = t!"-" then -(positional 10 gs.flatten : Int) else positional 10 gs.flatten) {}
        (sign ++ underscored gs)) := by
  have key : ∀ neg, SignText sign neg → (neg = true ↔ sign = t!"-") →
      apiValue (sign ++ underscored gs) =
      .ok (.integer (if sign = t!"-" then -(positional 10 gs.flatten : Int) else positional 10 gs.flatten) {}
        (sign ++ underscored gs)) := by
    intro neg hst hneg
    have h := dec_value hst hg hz (3 * (sign ++ underscored gs).length + 9) [] [] [] [] (Or.inl rfl)
    refine apiValue_of (e := sign ++ underscored gs) (a := []) (l := []) ?_
    rw [List.append_nil] at h
    have hsig : signed neg (positional 10 gs.flatten) =
        (if sign = t!"-" then -(positional 10 gs.flatten : Int) else positional 10 gs.flatten) := by
      unfold signed
      by_cases h : sign = t!"-"
      · rw [if_pos h, if_pos (hneg.2 h)]
      · rw [if_neg h, if_neg (fun h' => h (hneg.1 h'))]
    rw [hsig] at h
    simpa [St.init, valueFuel] using h
  rcases hs with rfl | rfl | rfl
  · exact key false .none (by simp)
  · exact key false .plus (by simp)
  · exact key true .minus (by simp)

/-- `0xdead_BEEF` and `-1_000` meet the hypotheses -/
example : DigitGroups 16 [t!"dead", t!"BEEF"] ∧ underscored [t!"dead", t!"BEEF"] = t!"dead_BEEF" ∧
    positional 16 (t!"deadBEEF") = 0xdeadBEEF := by
  refine ⟨⟨by decide, by decide, ?_⟩, rfl, by decide +kernel⟩
  intro g hg c hc
  have : ∀ g ∈ [t!"dead", t!"BEEF"], ∀ c ∈ g, ∃ d < 16, digitValue c = some d := by decide +kernel
  obtain ⟨d, h1, h2⟩ := this g hg c hc
  exact ⟨d, h2, h1⟩
example : DigitGroups 10 [t!"1", t!"000"] ∧ NoLeadingZero [t!"1", t!"000"].flatten := by
  refine ⟨⟨by decide, by decide, ?_⟩, Or.inr (by decide)⟩
  intro g hg c hc
  have : ∀ g ∈ [t!"1", t!"000"], ∀ c ∈ g, ∃ d < 10, digitValue c = some d := by decide +kernel
  obtain ⟨d, h1, h2⟩ := this g hg c hc
  exact ⟨d, h2, h1⟩

/-! ## C08 -/

/-- integer and float items -/
def Item.isNumber : Item → Bool
  | .integer .. => true
  | .float .. => true
  | _ => false

theorem strLoop_str {d : StrType} {n : Nat} : ∀ {v b st it st'}, strLoop d n v b st = .ok it st' →
    ∃ v' o, it = .str d v' o {} := by
  induction n with
  | zero => intro v b st it st' h; simp [strLoop] at h
  | succ n ih =>
    intro v b st it st' h
    rw [strLoop] at h
    simp only [getSt_bind] at h
    split at h
    · simp at h
    · split at h
      · split at h
        · simp only [extract_bind, skip_bind] at h
          split at h
          · exact ih h
          · split at h
            · simp at h; exact ⟨_, _, h.1.symm⟩
            · split at h
              · simp at h
              · simp at h; exact ⟨_, _, h.1.symm⟩
        · simp only [extract_bind] at h
          obtain ⟨_, _, _, h⟩ := P.bind_ok.1 h
          simp at h; exact ⟨_, _, h.1.symm⟩
      · split at h
        · obtain ⟨_, _, _, h⟩ := P.bind_ok.1 h
          exact ih h
        · split at h
          · obtain ⟨_, _, _, h⟩ := P.bind_ok.1 h
            exact ih h
          · obtain ⟨_, _, _, h⟩ := P.bind_ok.1 h
            exact ih h

theorem strBody_str {d : StrType} {st it st'} (h : strBody d st = .ok it st') : ∃ v' o, it = .str d v' o {} := by
  unfold strBody at h
  simp only [mark_bind] at h
  obtain ⟨_, _, _, h⟩ := P.bind_ok.1 h
  simp only [getSt_bind] at h
  exact strLoop_str h

theorem parseString_str {d : StrType} {st it st'} (h : parseString d st = .ok it st') :
    ∃ ty v' o, it = .str ty v' o {} ∧ (ty = d ∨ ty = d.toggle) := by
  unfold parseString at h
  simp only [getSt_bind] at h
  split at h
  · simp at h
  · obtain ⟨_, _, _, h⟩ := P.bind_ok.1 h
    simp only [getSt_bind] at h
    split at h
    · obtain ⟨_, _, _, h⟩ := P.bind_ok.1 h
      simp only [getSt_bind] at h
      split at h
      · simp at h; exact ⟨_, _, _, h.1.symm, Or.inl rfl⟩
      · obtain ⟨_, _, _, h⟩ := P.bind_ok.1 h
        obtain ⟨_, _, h⟩ := strBody_str h
        exact ⟨_, _, _, h, Or.inr rfl⟩
    · obtain ⟨_, _, h⟩ := strBody_str h
      exact ⟨_, _, _, h, Or.inl rfl⟩

theorem restoring_inv {α : Type} {m : P α} {st st' : St} {a : α} (h : restoring m st = .ok a st') :
    m st = .ok a st' := by
  unfold restoring at h
  cases hm : m st with
  | ok a' s' => rw [hm] at h; simpa using h
  | err e s' => rw [hm] at h; simp at h

theorem parseDigits_number {rest a l it st'} (h : parseDigits ⟨rest, [], a, l⟩ = .ok it st') (hn : it.isNumber = true) :
    parseNumber (rest.takeWhile fun c => !isValueEnd c) {} = some it ∧
      st'.rest = rest.dropWhile fun c => !isValueEnd c := by
  unfold parseDigits at h
  simp only [skip_bind, extract_bind, List.nil_append] at h
  generalize hraw : (rest.takeWhile fun c => !isValueEnd c) = raw at h ⊢
  have hde : ∀ k e st, (dateErr k e : P Item) st ≠ .ok it st' := by
    intro k e st; cases e <;> simp [dateErr]
  have hnone : ∀ st, (match parseNumber raw {} with
      | some i => pure i
      | none => fail .invalidNumber : P Item) st = .ok it st' → parseNumber raw {} = some it ∧ st'.rest = st.rest := by
    intro st h
    cases hp : parseNumber raw {} with
    | none => rw [hp] at h; simp at h
    | some i =>
      rw [hp] at h
      simp at h
      rw [h.1, ← h.2]
      exact ⟨rfl, rfl⟩
  rcases hm : matchLoose raw with _ | ⟨_ | _, _ | _⟩
  · rw [hm] at h; exact hnone _ h
  · rw [hm] at h; exact hnone _ h
  all_goals
    rw [hm] at h
    simp only at h
    rcases hr : parseRfc3339 raw with e | (d | d | d)
  all_goals
    rw [hr] at h
    try simp only [mark_bind, skip_bind, extract_bind] at h
    try exact absurd h (hde _ _ _)
    try (simp at h)
  all_goals try (rw [← h.1] at hn; simp [Item.isNumber] at hn)
  all_goals
    split at h
    · simp at h
      try (rw [← h.1] at hn; simp [Item.isNumber] at hn)
    · generalize (raw ++ rstrip (List.takeWhile (fun c => !isDateEnd c) (List.dropWhile (fun c => !isValueEnd c) rest))) = raw2 at h
      rcases hr2 : parseRfc3339 raw2 with e | (d2 | d2 | d2)
      all_goals
        rw [hr2] at h
        try exact absurd h (hde _ _ _)
        try (simp at h)
      all_goals try (rw [← h.1] at hn; simp [Item.isNumber] at hn)

theorem parseValue_number {n : Nat} {rest e a l it st'} (h : parseValue n ⟨rest, e, a, l⟩ = .ok it st')
    (hn : it.isNumber = true) :
    parseNumber (rest.takeWhile fun c => !isValueEnd c) {} = some it ∧
      st'.rest = rest.dropWhile fun c => !isValueEnd c := by
  cases n with
  | zero => simp [parseValue] at h
  | succ n =>
    rw [parseValue] at h
    simp only [mark_bind, getSt_bind] at h
    split at h
    · obtain ⟨_, _, _, rfl, _⟩ := parseString_str (restoring_inv h)
      simp [Item.isNumber] at hn
    split at h
    · obtain ⟨_, _, _, rfl, _⟩ := parseString_str (restoring_inv h)
      simp [Item.isNumber] at hn
    split at h
    · unfold parseBool at h
      split at h
      · simp at h; rw [← h.1] at hn; simp [Item.isNumber] at hn
      · simp at h
    split at h
    · unfold parseBool at h
      split at h
      · simp at h; rw [← h.1] at hn; simp [Item.isNumber] at hn
      · simp at h
    split at h
    · obtain ⟨_, _, _, h⟩ := P.bind_ok.1 h
      obtain ⟨_, _, _, h⟩ := P.bind_ok.1 h
      simp at h; rw [← h.1] at hn; simp [Item.isNumber] at hn
    split at h
    · obtain ⟨_, _, _, h⟩ := P.bind_ok.1 h
      obtain ⟨_, _, _, h⟩ := P.bind_ok.1 h
      simp at h; rw [← h.1] at hn; simp [Item.isNumber] at hn
    split at h
    · simp only [skip_bind, extract_bind, List.nil_append] at h
      cases hp : parseNumber (rest.takeWhile fun c => !isValueEnd c) {} with
      | none => rw [hp] at h; simp at h
      | some i =>
        rw [hp] at h
        simp at h
        rw [h.1, ← h.2]
        exact ⟨rfl, rfl⟩
    split at h
    · exact parseDigits_number h hn
    · simp at h

theorem apiValue_number {s : Str} {it : Item} (h : apiValue s = .ok it) (hn : it.isNumber = true) :
    parseNumber s {} = some it := by
  unfold apiValue at h
  split at h
  · next v st' hv =>
    split at h
    · next he =>
      injection h with h
      subst h
      obtain ⟨h1, h2⟩ := parseValue_number hv hn
      have : st'.rest = [] := by simpa [St.atEnd] using he
      rw [this] at h2
      have hs : (s.takeWhile fun c => !isValueEnd c) = s := by
        have := List.takeWhile_append_dropWhile (p := fun c => !isValueEnd c) (l := s)
        rw [← h2, List.append_nil] at this
        exact this
      rwa [hs] at h1
    · simp at h
  · simp at h

theorem dropUnderscores_cons (p : Chr → Bool) (prev : Option Chr) (c : Chr) (s : Str) :
    (dropUnderscores p prev (c :: s) = dropUnderscores p (some c) s ∧ c = 95 ∧
      (∃ q, prev = some q ∧ p q = true) ∧ ∃ q r, s = q :: r ∧ p q = true) ∨
    dropUnderscores p prev (c :: s) = c :: dropUnderscores p (some c) s := by
  rw [dropUnderscores.eq_def]
  by_cases hc : c = 95
  · cases prev with
    | none => right; simp [hc]
    | some q =>
      cases s with
      | nil => right; simp
      | cons q2 r =>
        cases h1 : p q
        · right; simp [h1]
        · cases h2 : p q2
          · right; simp [h2]
          · left; simp [h1, h2, hc]
  · right
    simp [hc]

/-- an underscore that is not dropped stays -/
theorem dropUnderscores_inv {p : Chr → Bool} {s : Str} : ∀ {prev : Option Chr},
    95 ∉ dropUnderscores p prev s → ∀ a b, s = a ++ 95 :: b →
      (∃ x, a.getLast?.or prev = some x ∧ p x = true) ∧
      (∃ y b', b = y :: b' ∧ p y = true) := by
  induction s with
  | nil => intro prev _ a b h; simp at h
  | cons c s ih =>
    intro prev h a b hab
    have hd := dropUnderscores_cons p prev c s
    cases a with
    | nil =>
      simp at hab
      obtain ⟨rfl, rfl⟩ := hab
      rcases hd with ⟨_, _, h1, h2⟩ | hd
      · exact ⟨by simpa using h1, h2⟩
      · rw [hd] at h; simp at h
    | cons a0 a =>
      simp at hab
      obtain ⟨rfl, rfl⟩ := hab
      have h' : 95 ∉ dropUnderscores p (some c) (a ++ 95 :: b) := by
        rcases hd with ⟨hd, _⟩ | hd
        · rwa [hd] at h
        · rw [hd] at h; simp at h; exact h.2
      have := ih h' a b rfl
      cases a with
      | nil => simpa using this
      | cons a1 a =>
        have e : (c :: a1 :: a).getLast?.or prev = (a1 :: a).getLast?.or (some c) := by
          rw [List.getLast?_cons_cons]
          cases hh : (a1 :: a).getLast? with
          | none => simp at hh
          | some z => rfl
        rw [e]; exact this

theorem not_mem_map_lower {s : Str} (h : (s.map lowerAscii).contains 95 = false) : 95 ∉ s := by
  intro hm
  have : (s.map lowerAscii).contains 95 = true := by
    rw [List.contains_iff_mem]
    exact List.mem_map.2 ⟨95, hm, rfl⟩
  rw [this] at h
  simp at h

theorem numDigitClass_spec {raw : Str} {c : Chr} (h : numDigitClass raw c = true) : IsDigit (numBase raw) c := by
  unfold numDigitClass at h
  unfold numBase
  have hd : ∀ c : Nat, 48 ≤ c → c ≤ 57 → digitValue c = some (c - 48) := by
    intro c h1 h2; unfold digitValue; rw [if_pos ⟨h1, h2⟩]
  split at h
  · next h1 =>
    rw [if_pos h1]
    simp at h
    exact ⟨c - 48, hd c (by omega) (by omega), by omega⟩
  · next h1 =>
    rw [if_neg h1]
    split at h
    · next h2 =>
      rw [if_pos h2]
      simp at h
      exact ⟨c - 48, hd c (by omega) (by omega), by omega⟩
    · next h2 =>
      rw [if_neg h2]
      split at h
      · next h3 =>
        rw [if_pos h3]
        simp [isHexChar, isDigit] at h
        unfold IsDigit digitValue
        rcases h with (h | h) | h
        · exact ⟨c - 48, by rw [if_pos (by omega)], by omega⟩
        · exact ⟨c - 87, by rw [if_neg (by omega), if_pos (by omega)], by omega⟩
        · exact ⟨c - 55, by rw [if_neg (by omega), if_neg (by omega), if_pos (by omega)], by omega⟩
      · next h3 =>
        rw [if_neg h3]
        simp [isDigit] at h
        exact ⟨c - 48, hd c (by omega) (by omega), by omega⟩

/-- the body of a literal after an optional sign -/
theorem numSign_spec {s : Str} : s = (numSign s).1 ++ (numSign s).2 ∧
    ((numSign s).1 = [] ∨ (numSign s).1 = [43] ∨ (numSign s).1 = [45]) ∧
    ((numSign s).1 = [] → ∀ r, s ≠ 43 :: r ∧ s ≠ 45 :: r) := by
  unfold numSign
  split
  · simp
  · simp
  · next h1 h2 =>
    refine ⟨rfl, Or.inl rfl, ?_⟩
    intro _ r
    exact ⟨fun h => h1 r h, fun h => h2 r h⟩

theorem isPrefixOf_two {a b : Nat} {r : Str} : ([a, b] : Str).isPrefixOf (a :: b :: r) = true := by
  simp [List.isPrefixOf]

theorem numRejected_of {sg raw : Str} (h : numRejected sg raw = false) :
    (∀ c r, raw = 48 :: c :: r → c = 46 ∨ c = 111 ∨ c = 120 ∨ c = 98 ∨ c = 101) ∧
    UnderscoresBetweenDigits (numBase raw) raw ∧
    (∀ c r, raw = 48 :: c :: r → c = 111 ∨ c = 120 ∨ c = 98 → sg = []) ∧
    (∀ r, raw ≠ r ++ [46]) := by
  unfold numRejected at h
  simp only [Bool.or_eq_false_iff] at h
  obtain ⟨⟨⟨⟨h1, h2⟩, h3⟩, h4⟩, h5⟩ := h
  have hu : 95 ∉ dropUnderscores (numDigitClass raw) none raw := not_mem_map_lower h3
  refine ⟨?_, ?_, ?_, ?_⟩
  · rintro c r rfl
    simp [List.isPrefixOf] at h1
    omega
  · intro a b hab
    obtain ⟨⟨x, hx, hpx⟩, y, b', hb, hpy⟩ := dropUnderscores_inv hu a b hab
    refine ⟨?_, y, b', hb, numDigitClass_spec hpy⟩
    cases hl : a.getLast? with
    | none => rw [hl] at hx; simp at hx
    | some q =>
      rw [hl] at hx
      simp at hx
      subst hx
      obtain ⟨a', ha'⟩ := List.getLast?_eq_some_iff.1 hl
      exact ⟨a', q, ha', numDigitClass_spec hpx⟩
  · rintro c r rfl hc
    cases sg with
    | nil => rfl
    | cons x sg =>
      exfalso
      rcases hc with rfl | rfl | rfl <;> simp [List.isPrefixOf] at h2
  · rintro r rfl
    have hlast : ∀ (s : Str) prev, ∃ z, dropUnderscores (numDigitClass (r ++ [46])) prev (s ++ [46]) = z ++ [46] := by
      intro s
      induction s with
      | nil => intro prev; exact ⟨[], by simp [dropUnderscores]⟩
      | cons c s ih =>
        intro prev
        obtain ⟨z, hz⟩ := ih (some c)
        rw [List.cons_append]
        rcases dropUnderscores_cons (numDigitClass (r ++ [46])) prev c (s ++ [46]) with ⟨hd, _⟩ | hd
        · exact ⟨z, by rw [hd, hz]⟩
        · exact ⟨c :: z, by rw [hd, hz]; rfl⟩
    obtain ⟨z, hz⟩ := hlast r none
    have : endsDot (numClean (r ++ [46])) = true := by
      unfold numClean
      rw [hz]
      simp [endsDot, lowerAscii]
    rw [this] at h4
    simp at h4

/-- **C08.** Whatever `value()` accepts as an integer or a float has a text made of an optional sign and a body
such that: the body has no superfluous leading zero (a first `0` is the whole body, or is followed by one of
`. e o x b`); every underscore of the body stands between two digits of its base; a based literal has no sign;
the body does not end with a dot. -/
theorem C08_malformed_numbers_rejected (s : Str) (it : Item) (h : apiValue s = .ok it)
    (hn : (∃ v t r, it = .integer v t r) ∨ (∃ v t r, it = .float v t r)) :
    ∃ sign body base, s = sign ++ body ∧ (sign = [] ∨ sign = t!"+" ∨ sign = t!"-") ∧
      (sign = [] → ∀ r, body ≠ 43 :: r ∧ body ≠ 45 :: r) ∧
      (∀ c r, body = 48 :: c :: r → c ∈ t!".oxbe") ∧
      (∀ c r, body = 48 :: c :: r → c ∈ t!"oxb" → sign = []) ∧
      ((∃ r, body = t!"0b" ++ r) ∧ base = 2 ∨ (∃ r, body = t!"0o" ++ r) ∧ base = 8 ∨
        (∃ r, body = t!"0x" ++ r) ∧ base = 16 ∨ (∀ c r, body = 48 :: c :: r → c ∉ t!"oxb") ∧ base = 10) ∧
      UnderscoresBetweenDigits base body ∧ ∀ r, body ≠ r ++ t!"." := by
  have hn' : it.isNumber = true := by
    rcases hn with ⟨_, _, _, rfl⟩ | ⟨_, _, _, rfl⟩ <;> rfl
  have hp := apiValue_number h hn'
  unfold parseNumber at hp
  have hrej : numRejected (numSign s).1 (numSign s).2 = false := by
    cases hh : numRejected (numSign s).1 (numSign s).2
    · rfl
    · rw [show numSign s = ((numSign s).1, (numSign s).2) from rfl] at hp
      simp [hh] at hp
  obtain ⟨h1, h2, h3, h4⟩ := numRejected_of hrej
  obtain ⟨hs1, hs2, hs3⟩ := numSign_spec (s := s)
  refine ⟨(numSign s).1, (numSign s).2, numBase (numSign s).2, hs1, hs2, ?_, ?_, ?_, ?_, h2, h4⟩
  · intro h0 r
    have := hs3 h0 r
    rw [h0, List.nil_append] at hs1
    rw [← hs1]; exact this
  · intro c r hb; have := h1 c r hb; simp; omega
  · intro c r hb hc; exact h3 c r hb (by simp at hc; omega)
  · generalize (numSign s).2 = body at *
    have hpre : ∀ x y : Nat, ([x, y] : Str).isPrefixOf body = true ↔ ∃ r, body = [x, y] ++ r := by
      intro x y
      rw [List.isPrefixOf_iff_prefix]
      constructor
      · rintro ⟨r, hr⟩; exact ⟨r, hr.symm⟩
      · rintro ⟨r, hr⟩; exact ⟨r, hr.symm⟩
    unfold numBase
    split
    · next hx => exact Or.inl ⟨(hpre _ _).1 hx, rfl⟩
    · next hx1 =>
      split
      · next hx => exact Or.inr (Or.inl ⟨(hpre _ _).1 hx, rfl⟩)
      · next hx2 =>
        split
        · next hx => exact Or.inr (Or.inr (Or.inl ⟨(hpre _ _).1 hx, rfl⟩))
        · next hx3 =>
          refine Or.inr (Or.inr (Or.inr ⟨?_, rfl⟩))
          rintro c r rfl hc
          simp at hc
          rcases hc with rfl | rfl | rfl
          · exact hx2 isPrefixOf_two
          · exact hx3 isPrefixOf_two
          · exact hx1 isPrefixOf_two

/-- numbers do exist, and the malformed ones of the claim are refused (`none` here) -/
example : ((apiValue (t!"-1_0.5e1_0")).toOption.map Item.isNumber) = some true ∧
    ((apiValue (t!"0x1_F")).toOption.map Item.isNumber) = some true ∧
    ([t!"01", t!"-01", t!"1__0", t!"_1", t!"1_", t!"0x_1", t!"+0x1", t!"1.", t!"1.e5", t!"+.5"].all
      fun s => (apiValue s).toOption.isNone) = true := by
  decide +kernel

/-! ### The converse of C07: nothing else is an integer -/

theorem stripAscii_noop {s : Str} (h : ∀ c ∈ s, 33 ≤ c ∧ c < 127) : stripAscii (normNum s) = s :=
  prep_id fun c hc => by have := h c hc; omega

theorem intDigits_inv {base : Nat} {s : Str} : ∀ {b : Bool} {acc n : Nat}, 95 ∉ s → intDigits base b acc s = some n →
    (b = true ∨ s ≠ []) ∧ ∀ c ∈ s, (baseDigit base c).isSome := by
  induction s with
  | nil => intro b acc n _ h; simp [intDigits] at h; simp [h]
  | cons c s ih =>
    intro b acc n h95 h
    simp at h95
    rw [intDigits.eq_def] at h
    have hc : ¬ c = 95 := fun h => h95.1 h.symm
    simp only [hc, if_false] at h
    cases hd : baseDigit base c with
    | none => rw [hd] at h; simp at h
    | some d =>
      rw [hd] at h
      have := ih h95.2 h
      refine ⟨Or.inr (by simp), ?_⟩
      intro x hx
      rcases List.mem_cons.1 hx with rfl | hx
      · simp [hd]
      · exact this.2 x hx

theorem baseDigit_isDigit {base c : Nat} (hb : base ≤ 16) (h : (baseDigit base c).isSome) : IsDigit base c := by
  unfold baseDigit digitVal at h
  unfold IsDigit digitValue
  simp only [Bool.and_eq_true, decide_eq_true_eq] at h
  split at h
  · next d hd =>
    split at hd
    · next h1 => simp at hd; split at h <;> simp at h; exact ⟨d, by rw [if_pos h1, hd], by assumption⟩
    · next h1 =>
      split at hd
      · next h2 =>
        simp at hd; split at h <;> simp at h
        exact ⟨d, by rw [if_neg h1, if_pos (by omega), hd], by assumption⟩
      · next h2 =>
        split at hd
        · next h3 =>
          simp at hd; split at h <;> simp at h
          exact ⟨d, by rw [if_neg h1, if_neg (by omega), if_pos (by omega), hd], by assumption⟩
        · simp at hd
  · simp at h

theorem isDigit_of_lower {base c : Nat} (h : IsDigit base (lowerAscii c)) : IsDigit base c := by
  obtain ⟨d, h1, h2, h3⟩ := isDigit_cases h
  unfold lowerAscii at h3
  simp only [Bool.and_eq_true, decide_eq_true_eq] at h3
  unfold IsDigit digitValue
  split at h3
  · exact ⟨d, by rw [if_neg (by omega), if_neg (by omega), if_pos (by omega)]; congr 1; omega, h2⟩
  · rcases h3 with h3 | h3 | h3
    · exact ⟨d, by rw [if_pos (by omega)]; congr 1; omega, h2⟩
    · exact ⟨d, by rw [if_neg (by omega), if_pos (by omega)]; congr 1; omega, h2⟩
    · exact ⟨d, by rw [if_neg (by omega), if_neg (by omega), if_pos (by omega)]; congr 1; omega, h2⟩

/-- text made of digits and underscores between digits is a list of groups -/
theorem groups_of {base : Nat} {s : Str} (h1 : s ≠ []) (h2 : ∀ c ∈ s, c = 95 ∨ IsDigit base c)
    (h3 : UnderscoresBetweenDigits base s) : ∃ gs, s = underscored gs ∧ DigitGroups base gs := by
  have key : ∀ (n : Nat) (s : Str), s.length ≤ n → s ≠ [] → (∀ c ∈ s, c = 95 ∨ IsDigit base c) →
      UnderscoresBetweenDigits base s → ∃ gs, s = underscored gs ∧ DigitGroups base gs := by
    intro n
    induction n with
    | zero => intro s hl h; simp at hl; exact absurd hl h
    | succ n ih =>
      intro s hl h1 h2 h3
      by_cases h95 : 95 ∈ s
      · obtain ⟨a, b, rfl⟩ := List.append_of_mem h95
        -- the first underscore
        obtain ⟨a, b, hs, ha⟩ : ∃ a' b', a ++ 95 :: b = a' ++ 95 :: b' ∧ 95 ∉ a' := by
          refine ⟨(a ++ 95 :: b).takeWhile (· != 95), ((a ++ 95 :: b).dropWhile (· != 95)).tail, ?_, ?_⟩
          · have hne : (a ++ 95 :: b).dropWhile (· != 95) ≠ [] := by
              intro hh
              have h1 := List.takeWhile_append_dropWhile (p := (· != 95)) (l := a ++ 95 :: b)
              rw [hh, List.append_nil] at h1
              have h2 := List.all_takeWhile (l := a ++ 95 :: b) (p := (· != 95))
              rw [h1, List.all_eq_true] at h2
              simpa using h2 95 (by simp)
            obtain ⟨x, y, hxy⟩ := List.exists_cons_of_ne_nil hne
            have hx : x = 95 := by
              have hh := List.head?_dropWhile_not (· != 95) (a ++ 95 :: b)
              rw [hxy] at hh
              simpa using hh
            have := (List.takeWhile_append_dropWhile (p := (· != 95)) (l := a ++ 95 :: b)).symm
            rw [hxy, hx] at this
            rw [hxy]
            simpa using this
          · intro hm
            have := List.all_takeWhile (l := a ++ 95 :: b) (p := (· != 95))
            rw [List.all_eq_true] at this
            simpa using this 95 hm
        rw [hs] at hl h2 h3 ⊢
        obtain ⟨⟨a', x, hax, hx⟩, y, b', hby, hy⟩ := h3 a b rfl
        obtain ⟨gs, hgs, hg⟩ := ih b (by simp at hl; omega) (by rw [hby]; simp)
          (fun c hc => h2 c (by simp [hc])) (by
            intro p q hpq
            have := h3 (a ++ 95 :: p) q (by rw [hpq]; simp)
            obtain ⟨⟨p', z, hp, hz⟩, hq⟩ := this
            refine ⟨?_, hq⟩
            rcases List.eq_nil_or_concat p with rfl | ⟨p, w, rfl⟩
            · exfalso
              simp at hp
              have := digit_range hz
              omega
            · have e : a ++ 95 :: p.concat w = (a ++ 95 :: p) ++ [w] := by simp
              rw [e] at hp
              have hwz : w = z := by
                have := (List.append_inj' hp rfl).2
                simpa using this
              exact ⟨p, w, by simp, by rw [hwz]; exact hz⟩)
        refine ⟨a :: gs, ?_, ?_⟩
        · obtain ⟨g, r, hgr⟩ := List.exists_cons_of_ne_nil hg.1
          rw [hgr] at hgs ⊢
          rw [hgs]; rfl
        · refine ⟨by simp, ?_, ?_⟩
          · intro g hg'
            rcases List.mem_cons.1 hg' with rfl | hg'
            · rw [hax]; simp
            · exact hg.2.1 g hg'
          · intro g hg' c hc
            rcases List.mem_cons.1 hg' with rfl | hg'
            · rcases h2 c (by simp [hc]) with rfl | h
              · exact absurd hc ha
              · exact h
            · exact hg.2.2 g hg' c hc
      · refine ⟨[s], rfl, by simp, by simpa using h1, ?_⟩
        intro g hg c hc
        simp at hg
        subst hg
        rcases h2 c hc with rfl | h
        · exact absurd hc h95
        · exact h
  exact key s.length s (Nat.le_refl _) h1 h2 h3

theorem mem_dropUnderscores {p : Chr → Bool} {s : Str} {c : Chr} : ∀ {prev}, c ∈ s → c = 95 ∨ c ∈ dropUnderscores p prev s := by
  induction s with
  | nil => intro _ h; simp at h
  | cons d s ih =>
    intro prev h
    rcases dropUnderscores_cons p prev d s with ⟨hd, hd', _⟩ | hd
    · rw [hd]
      rcases List.mem_cons.1 h with rfl | h
      · exact Or.inl hd'
      · exact ih h
    · rw [hd]
      rcases List.mem_cons.1 h with rfl | h
      · exact Or.inr (by simp)
      · rcases ih (prev := some d) h with h | h
        · exact Or.inl h
        · exact Or.inr (by simp [h])

theorem of_mem_dropUnderscores {p : Chr → Bool} {s : Str} {c : Chr} : ∀ {prev}, c ∈ dropUnderscores p prev s → c ∈ s := by
  induction s with
  | nil => intro _ h; simp [dropUnderscores] at h
  | cons d s ih =>
    intro prev h
    rcases dropUnderscores_cons p prev d s with ⟨hd, _⟩ | hd
    · rw [hd] at h; exact List.mem_cons_of_mem _ (ih h)
    · rw [hd] at h
      rcases List.mem_cons.1 h with rfl | h
      · simp
      · exact List.mem_cons_of_mem _ (ih h)

theorem dropUnderscores_nil {p : Chr → Bool} {s : Str} : ∀ {prev}, s ≠ [] → dropUnderscores p prev s ≠ [] := by
  induction s with
  | nil => intro _ h; exact absurd rfl h
  | cons d s ih =>
    intro prev _
    rcases dropUnderscores_cons p prev d s with ⟨hd, _, _, q, r, hs, _⟩ | hd
    · rw [hd]; exact ih (by rw [hs]; simp)
    · rw [hd]; simp

theorem printable_lower {c : Nat} (h : 33 ≤ c ∧ c < 127) : 33 ≤ lowerAscii c ∧ lowerAscii c < 127 := by
  unfold lowerAscii
  simp only [Bool.and_eq_true, decide_eq_true_eq]
  split <;> omega

/-- digits of a decimal body -/
theorem dec_shape {sg raw : Str} {n : Int} (hpr : ∀ c ∈ sg ++ raw, 33 ≤ c ∧ c < 127)
    (hsg : sg = [] ∨ sg = [43] ∨ sg = [45]) (hns : sg = [] → ∀ r, raw ≠ 43 :: r ∧ raw ≠ 45 :: r)
    (hr : numRejected sg raw = false) (hb : numBase raw = 10)
    (h : pyInt 10 (sg ++ numClean raw) = some n) :
    ∃ gs, raw = underscored gs ∧ DigitGroups 10 gs ∧ NoLeadingZero gs.flatten := by
  obtain ⟨h1, h2, -, -⟩ := numRejected_of hr
  rw [hb] at h2
  have h95 : 95 ∉ numClean raw := by
    unfold numRejected at hr
    simp only [Bool.or_eq_false_iff] at hr
    intro hm
    have := hr.1.1.2
    rw [← List.contains_iff_mem] at hm
    rw [hm] at this
    simp at this
  have hpc : ∀ c ∈ numClean raw, 33 ≤ c ∧ c < 127 := by
    intro c hc
    obtain ⟨x, hx, rfl⟩ := List.mem_map.1 hc
    exact printable_lower (hpr x (by simp [of_mem_dropUnderscores hx]))
  unfold pyInt at h
  rw [stripAscii_noop (by
    intro c hc
    rcases List.mem_append.1 hc with hc | hc
    · exact hpr c (by simp [hc])
    · exact hpc c hc)] at h
  have hd : ∀ s, dropBasePrefix 10 s = s := by
    intro s; unfold dropBasePrefix; split <;> simp
  have hsgn : (intSign (sg ++ numClean raw)).2 = numClean raw := by
    rcases hsg with rfl | rfl | rfl
    · rw [List.nil_append]
      unfold intSign
      split
      · next r hr' =>
        exfalso
        have hc0 : (numClean raw).head? = some 43 := by rw [hr']; rfl
        cases raw with
        | nil => simp [numClean, dropUnderscores] at hr'
        | cons x xs =>
          unfold numClean at hr'
          rcases dropUnderscores_cons (numDigitClass (x :: xs)) none x xs with ⟨_, _, ⟨q, hq, _⟩, _⟩ | hd
          · simp at hq
          · rw [hd] at hr'
            simp at hr'
            have : x = 43 := by
              have := hr'.1
              unfold lowerAscii at this
              simp only [Bool.and_eq_true, decide_eq_true_eq] at this
              split at this <;> omega
            exact (hns rfl xs).1 (by rw [this])
      · next r hr' =>
        exfalso
        cases raw with
        | nil => simp [numClean, dropUnderscores] at hr'
        | cons x xs =>
          unfold numClean at hr'
          rcases dropUnderscores_cons (numDigitClass (x :: xs)) none x xs with ⟨_, _, ⟨q, hq, _⟩, _⟩ | hd
          · simp at hq
          · rw [hd] at hr'
            simp at hr'
            have : x = 45 := by
              have := hr'.1
              unfold lowerAscii at this
              simp only [Bool.and_eq_true, decide_eq_true_eq] at this
              split at this <;> omega
            exact (hns rfl xs).2 (by rw [this])
      · rfl
    · rfl
    · rfl
  simp only [hd, hsgn] at h
  cases hi : intDigits 10 false 0 (numClean raw) with
  | none => rw [hi] at h; simp at h
  | some m =>
    obtain ⟨hne, hdig⟩ := intDigits_inv h95 hi
    have hraw : raw ≠ [] := by
      rintro rfl
      simp [numClean, dropUnderscores] at hne
    have hall : ∀ c ∈ raw, c = 95 ∨ IsDigit 10 c := by
      intro c hc
      rcases mem_dropUnderscores (p := numDigitClass raw) (prev := none) hc with h | h
      · exact Or.inl h
      · refine Or.inr (isDigit_of_lower (baseDigit_isDigit (by omega) (hdig _ ?_)))
        exact List.mem_map.2 ⟨c, h, rfl⟩
    obtain ⟨gs, hgs, hg⟩ := groups_of hraw hall h2
    refine ⟨gs, hgs, hg, ?_⟩
    obtain ⟨g, r, y, t, he, hy, z, hz⟩ := underscored_head hg.1 hg.2.1
    have hhead : gs.flatten.head? = some y := by rw [he, hy]; simp
    by_cases hy48 : y = 48
    · left
      have hz0 : z = [] := by
        cases z with
        | nil => rfl
        | cons c z =>
          exfalso
          have hc := h1 c z (by rw [hgs, hz, hy48])
          have hm := hall c (by rw [hgs, hz]; simp)
          rcases hm with rfl | hm
          · omega
          · obtain ⟨d, _, hd1, hd2⟩ := isDigit_cases hm; omega
      have hfl := dropUnderscores_groups (p := fun _ => true) (base := 10) (fun _ _ => rfl) gs hg none
      rw [hz, hz0, hy48] at hfl
      rw [← hfl]
      simp [dropUnderscores]
    · right; rw [hhead]; simp [hy48]

theorem based_shape {raw pre r : Str} {base : Nat} {n : Int} (hb : BasePrefix pre base) (hraw : raw = pre ++ r)
    (hpr : ∀ c ∈ raw, 33 ≤ c ∧ c < 127) (hr : numRejected [] raw = false)
    (h : pyInt base (numClean raw) = some n) : ∃ gs, r = underscored gs ∧ DigitGroups base gs := by
  obtain ⟨-, h2, -, -⟩ := numRejected_of hr
  have hbase : numBase raw = base := by rw [hraw]; cases hb <;> rfl
  rw [hbase] at h2
  have h95 : 95 ∉ numClean raw := by
    unfold numRejected at hr
    simp only [Bool.or_eq_false_iff] at hr
    intro hm
    have := hr.1.1.2
    rw [← List.contains_iff_mem] at hm
    rw [hm] at this
    simp at this
  have hpc : ∀ c ∈ numClean raw, 33 ≤ c ∧ c < 127 := by
    intro c hc
    obtain ⟨x, hx, rfl⟩ := List.mem_map.1 hc
    exact printable_lower (hpr x (of_mem_dropUnderscores hx))
  -- the underscores of the digits
  have hr95 : UnderscoresBetweenDigits base r := by
    intro a b hab
    obtain ⟨⟨a', x, ha, hx⟩, hb'⟩ := h2 (pre ++ a) b (by rw [hraw, hab]; simp)
    refine ⟨?_, hb'⟩
    rcases List.eq_nil_or_concat a with rfl | ⟨p, w, rfl⟩
    · exfalso
      rw [List.append_nil] at ha
      have hl := congrArg List.getLast? ha
      obtain ⟨d, _, hd1, hd2⟩ := isDigit_cases hx
      cases hb <;> simp at hl <;> omega
    · have hl := congrArg List.getLast? ha
      rw [List.concat_eq_append, ← List.append_assoc] at hl
      simp at hl
      rw [List.concat_eq_append]
      exact ⟨p, w, rfl, by rw [hl]; exact hx⟩
  have hclean : ∃ prev, numClean raw = pre ++ (dropUnderscores (numDigitClass raw) prev r).map lowerAscii := by
    unfold numClean
    generalize numDigitClass raw = p
    rw [hraw, dropUnderscores_noUnderscore p none pre r (by cases hb <;> decide), List.map_append]
    cases hb
    · exact ⟨some 98, rfl⟩
    · exact ⟨some 111, rfl⟩
    · exact ⟨some 120, rfl⟩
  obtain ⟨prev, hcl⟩ := hclean
  obtain ⟨R, hR⟩ : ∃ R, R = (dropUnderscores (numDigitClass raw) prev r).map lowerAscii := ⟨_, rfl⟩
  rw [← hR] at hcl
  unfold pyInt at h
  rw [stripAscii_noop hpc, hcl] at h
  rw [hcl] at h95
  have hd : dropBasePrefix base (intSign (pre ++ R)).2 = R := by
    clear hR hcl
    have h95' : 95 ∉ R := fun hm => h95 (by simp [hm])
    have hdp : ∀ x, ((base == 16 && (x == 120 || x == 88)) || (base == 8 && (x == 111 || x == 79))
        || (base == 2 && (x == 98 || x == 66))) = true → dropBasePrefix base (48 :: x :: R) = R := by
      intro x hx
      simp only [dropBasePrefix]
      rw [if_pos hx]
      cases R with
      | nil => rfl
      | cons y R =>
        have : y ≠ 95 := by rintro rfl; simp at h95'
        split
        · next he => exact absurd (List.cons.inj he).1 this
        · rfl
    cases hb
    · exact hdp 98 rfl
    · exact hdp 111 rfl
    · exact hdp 120 rfl
  simp only [hd] at h
  cases hi : intDigits base false 0 R with
  | none => rw [hi] at h; simp at h
  | some m =>
    obtain ⟨hne, hdig⟩ := intDigits_inv (fun hm => h95 (by simp [hm])) hi
    have hrne : r ≠ [] := by
      rintro rfl
      simp [dropUnderscores] at hR
      simp [hR] at hne
    refine groups_of hrne ?_ hr95
    intro c hc
    rcases mem_dropUnderscores (p := numDigitClass raw) (prev := prev) hc with h | h
    · exact Or.inl h
    · refine Or.inr (isDigit_of_lower (baseDigit_isDigit (by cases hb <;> decide) (hdig _ ?_)))
      rw [hR]
      exact List.mem_map.2 ⟨c, h, rfl⟩

theorem apiValue_noEnd {s : Str} {it : Item} (h : apiValue s = .ok it) (hn : it.isNumber = true) :
    ∀ c ∈ s, isValueEnd c = false := by
  unfold apiValue at h
  split at h
  · next v st' hv =>
    split at h
    · next he =>
      injection h with h
      subst h
      obtain ⟨h1, h2⟩ := parseValue_number hv hn
      have : st'.rest = [] := by simpa [St.atEnd] using he
      rw [this] at h2
      intro c hc
      have hs := List.takeWhile_append_dropWhile (p := fun c => !isValueEnd c) (l := s)
      rw [← h2, List.append_nil] at hs
      have hall := List.all_takeWhile (l := s) (p := fun c => !isValueEnd c)
      rw [hs, List.all_eq_true] at hall
      simpa using hall c hc
    · simp at h
  · simp at h

/-- **C07/C08 (integers, exactly).** On printable ASCII text, `value()` yields an integer `n` exactly for the
integer literals of TOML that denote `n`. (Python's `int()` also takes non-ASCII digits and white space such as a
vertical tab, hence the restriction.) -/
theorem C08_integer_grammar (s : Str) (n : Int) (hp : Printable s) :
    (∃ t r, apiValue s = .ok (.integer n t r)) ↔ IntegerLiteral s n := by
  constructor
  · rintro ⟨t, r, h⟩
    have hnum := apiValue_number h rfl
    have hend := apiValue_noEnd h rfl
    have hpr : ∀ c ∈ s, 33 ≤ c ∧ c < 127 := by
      intro c hc
      have := hp c hc
      have h2 := hend c hc
      have : c ≠ 32 := by rintro rfl; simp [isValueEnd] at h2
      have := hp c hc
      omega
    -- the shape determines the value, by C07
    suffices hshape : ∃ m, IntegerLiteral s m by
      obtain ⟨m, hm⟩ := hshape
      have : n = m := by
        cases hm with
        | decimal gs hg hz =>
          have := C07_decimal_literals [] (Or.inl rfl) gs hg hz
          simp only [List.nil_append] at this
          rw [this] at h; simp at h; exact h.1.symm
        | plus gs hg hz =>
          have := C07_decimal_literals [43] (Or.inr (Or.inl rfl)) gs hg hz
          simp only [List.singleton_append] at this
          rw [this] at h; simp at h; exact h.1.symm
        | minus gs hg hz =>
          have := C07_decimal_literals [45] (Or.inr (Or.inr rfl)) gs hg hz
          simp only [List.singleton_append] at this
          rw [this] at h; simp at h; exact h.1.symm
        | binary gs hg =>
          have := C07_based_literals [48, 98] 2 (by simp) gs hg
          simp only [List.cons_append, List.nil_append] at this
          rw [this] at h; simp at h; exact h.1.symm
        | octal gs hg =>
          have := C07_based_literals [48, 111] 8 (by simp) gs hg
          simp only [List.cons_append, List.nil_append] at this
          rw [this] at h; simp at h; exact h.1.symm
        | hex gs hg =>
          have := C07_based_literals [48, 120] 16 (by simp) gs hg
          simp only [List.cons_append, List.nil_append] at this
          rw [this] at h; simp at h; exact h.1.symm
      rw [this]; exact hm
    obtain ⟨hs1, hs2, hs3⟩ := numSign_spec (s := s)
    unfold parseNumber at hnum
    generalize hsr : numSign s = sr at *
    obtain ⟨sg, raw⟩ := sr
    simp only at hs1 hs2 hs3 hnum
    cases hrej : numRejected sg raw with
    | true => rw [hrej] at hnum; simp at hnum
    | false =>
    rw [hrej] at hnum
    simp only [Bool.false_eq_true, if_false] at hnum
    have hpy : pyInt (numBase raw) (sg ++ numClean raw) = some n := by
      cases hpi : pyInt (numBase raw) (sg ++ numClean raw) with
      | none => rw [hpi] at hnum; simp at hnum
      | some m => rw [hpi] at hnum; simp at hnum; rw [hnum.1]
    have hbased : ∀ pre base, BasePrefix pre base → pre.isPrefixOf raw = true →
        numBase raw = base → ∃ gs, s = pre ++ underscored gs ∧ DigitGroups base gs := by
      intro pre base hb hpx hnb
      obtain ⟨r', hr'⟩ := List.isPrefixOf_iff_prefix.1 hpx
      have hsg : sg = [] := by
        have := (numRejected_of hrej).2.2.1
        cases hb
        · exact this 98 r' hr'.symm (by omega)
        · exact this 111 r' hr'.symm (by omega)
        · exact this 120 r' hr'.symm (by omega)
      subst hsg
      simp only [List.nil_append] at hs1 hpy
      rw [hnb] at hpy
      obtain ⟨gs, hgs, hg⟩ := based_shape hb hr'.symm (by rw [← hs1]; exact hpr) hrej hpy
      exact ⟨gs, by rw [hs1, ← hr', hgs], hg⟩
    by_cases h1 : (t!"0b").isPrefixOf raw = true
    · obtain ⟨gs, rfl, hg⟩ := hbased _ _ .bin h1 (by unfold numBase; rw [if_pos h1])
      exact ⟨_, .binary gs hg⟩
    by_cases h2 : (t!"0o").isPrefixOf raw = true
    · obtain ⟨gs, rfl, hg⟩ := hbased _ _ .oct h2 (by unfold numBase; rw [if_neg h1, if_pos h2])
      exact ⟨_, .octal gs hg⟩
    by_cases h3 : (t!"0x").isPrefixOf raw = true
    · obtain ⟨gs, rfl, hg⟩ := hbased _ _ .hex h3 (by unfold numBase; rw [if_neg h1, if_neg h2, if_pos h3])
      exact ⟨_, .hex gs hg⟩
    have hnb : numBase raw = 10 := by unfold numBase; rw [if_neg h1, if_neg h2, if_neg h3]
    rw [hnb] at hpy
    obtain ⟨gs, hgs, hg, hz⟩ := dec_shape (by rw [← hs1]; exact hpr) hs2 (by
      intro h0 r'
      have := hs3 h0 r'
      rw [h0, List.nil_append] at hs1
      rw [← hs1]; exact this) hrej hnb hpy
    rcases hs2 with rfl | rfl | rfl
    · rw [hs1, hgs]; exact ⟨_, .decimal gs hg hz⟩
    · rw [hs1, hgs]; exact ⟨_, .plus gs hg hz⟩
    · rw [hs1, hgs]; exact ⟨_, .minus gs hg hz⟩
  · intro h
    cases h with
    | decimal gs hg hz =>
      have := C07_decimal_literals [] (Or.inl rfl) gs hg hz
      exact ⟨_, _, by simpa using this⟩
    | plus gs hg hz =>
      have := C07_decimal_literals [43] (Or.inr (Or.inl rfl)) gs hg hz
      exact ⟨_, _, by simpa using this⟩
    | minus gs hg hz =>
      have := C07_decimal_literals [45] (Or.inr (Or.inr rfl)) gs hg hz
      exact ⟨_, _, by simpa using this⟩
    | binary gs hg =>
      have := C07_based_literals [48, 98] 2 (by simp) gs hg
      exact ⟨_, _, by simpa using this⟩
    | octal gs hg =>
      have := C07_based_literals [48, 111] 8 (by simp) gs hg
      exact ⟨_, _, by simpa using this⟩
    | hex gs hg =>
      have := C07_based_literals [48, 120] 16 (by simp) gs hg
      exact ⟨_, _, by simpa using this⟩

/-! ## C09 -/

theorem reDigit_ascii {c : Nat} (h : 32 ≤ c ∧ c < 127) : isReDigit c = true ↔ IsDigit 10 c := by
  have : ∀ c < 127, isReDigit c = decide (48 ≤ c ∧ c ≤ 57) := by decide +kernel
  rw [this c h.2, decide_eq_true_eq]
  constructor
  · intro h'; exact ⟨c - 48, by unfold digitValue; rw [if_pos h'], by omega⟩
  · intro h'; obtain ⟨d, _, h1, h2⟩ := isDigit_cases h'; omega

theorem intSigned_iff {raw : Str} (hp : Printable raw) : intSigned raw = true ↔ SignAndDigits raw := by
  unfold intSigned SignAndDigits
  cases raw with
  | nil => simp
  | cons c r =>
    have h10 : r.getLast? ≠ some 10 := by
      intro hh
      have := hp 10 (List.mem_cons_of_mem _ (List.mem_of_getLast? hh))
      omega
    simp only [if_neg h10, Bool.and_eq_true, List.all_eq_true]
    constructor
    · rintro ⟨h1, h2, h3⟩
      refine ⟨c, r, rfl, by simpa using h1, by simpa using h2, ?_⟩
      intro x hx
      exact (reDigit_ascii (hp x (by simp [hx]))).1 (h3 x hx)
    · rintro ⟨sg, ds, he, h1, h2, h3⟩
      obtain ⟨rfl, rfl⟩ := List.cons.inj he
      refine ⟨by simpa using h1, by simpa using h2, ?_⟩
      intro x hx
      exact (reDigit_ascii (hp x (by simp [hx]))).2 (h3 x hx)

theorem parseNumber_double_minus (n : Nat) : parseNumber (45 :: 45 :: natText n) {} = none := by
  obtain ⟨h1, -, -, -, -⟩ := natDigits_spec (n + 1) n (by omega)
  have hb : numBase (45 :: natText n) = 10 := by simp [numBase, List.isPrefixOf]
  unfold parseNumber
  simp only [numSign]
  cases hrej : numRejected [45] (45 :: natText n) with
  | true => simp
  | false =>
  simp only [Bool.false_eq_true, if_false, hb]
  have hcl : ∃ R, numClean (45 :: natText n) = 45 :: R ∧ ∀ c ∈ R, 33 ≤ c ∧ c < 127 := by
    unfold numClean
    rcases dropUnderscores_cons (numDigitClass (45 :: natText n)) none 45 (natText n) with ⟨_, h, _⟩ | hd
    · omega
    · rw [hd]
      refine ⟨_, rfl, ?_⟩
      intro c hc
      obtain ⟨x, hx, rfl⟩ := List.mem_map.1 hc
      exact printable_lower (by have := h1 x (of_mem_dropUnderscores hx); omega)
  obtain ⟨R, hR, hRp⟩ := hcl
  rw [hR]
  have hst : stripAscii (normNum ([45] ++ 45 :: R)) = 45 :: 45 :: R := stripAscii_noop (by
    intro c hc
    simp at hc
    rcases hc with rfl | hc
    · omega
    · exact hRp c hc)
  have hpi : pyInt 10 ([45] ++ 45 :: R) = none := by
    unfold pyInt
    rw [hst]
    have hd : ∀ s, dropBasePrefix 10 s = s := by
      intro s; unfold dropBasePrefix; split <;> simp
    simp [intSign, hd, intDigits, baseDigit, digitVal]
  have hfl : pyFloatOk ([45] ++ 45 :: R) = false := by
    unfold pyFloatOk
    rw [hst]
    simp [intSign, lowerAscii, isDigit]
  rw [hpi, hfl]
  simp

/-- **C09 (partial).** The full claim: whatever operation `f` is applied to an integer item with value `v` and text
`raw`, the text of the new item is read as the new value. It holds exactly unless the old text was a sign followed
by digits and the new value is negative; that case is false (`C09_counterexample`): a second sign is written. -/
theorem C09_arithmetic_partial (v : Int) (t : Trivia) (raw : Str) (hp : Printable raw) (f : Int → Int) :
    (∃ t' o, apiValue (intNew raw t (f v)).asString = .ok (.integer (f v) t' o)) ↔
      ¬ (SignAndDigits raw ∧ f v < 0) := by
  generalize f v = w
  rw [← intSigned_iff hp]
  have htext : (intNew raw t w).asString =
      if intSigned raw then (if w ≥ 0 then 43 :: intText w else 45 :: intText w) else intText w := by
    simp [intNew, Item.asString]
  rw [htext]
  by_cases hs : intSigned raw = true
  · by_cases hw : 0 ≤ w
    · have hneg : ¬ (w < 0) := by omega
      simp only [hs, if_true, ge_iff_le, hw, hneg, and_false, not_false_eq_true, iff_true]
      obtain ⟨h1, h2, h3⟩ := natText_groups w.natAbs
      have := C07_decimal_literals [43] (Or.inr (Or.inl rfl)) [natText w.natAbs] h1 h2
      rw [h3] at this
      have hw' : ((w.natAbs : Nat) : Int) = w := by omega
      refine ⟨{}, 43 :: intText w, ?_⟩
      simpa [underscored, intText, hneg, hw'] using this
    · have hneg : w < 0 := by omega
      simp only [hs, if_true, ge_iff_le, if_neg hw, hneg, and_true, not_true, iff_false]
      rintro ⟨t', o, h⟩
      have := apiValue_number h rfl
      simp only [intText, if_pos hneg] at this
      rw [parseNumber_double_minus] at this
      simp at this
  · simp only [hs]
    simp only [Bool.false_eq_true, if_false, false_and, not_false_eq_true, iff_true]
    exact ⟨_, _, by simpa [intItem, Item.asString] using C06_integers_survive w⟩

/-- one operation on an integer item -/
def intApply (it : Item) (f : Int → Int) : Item :=
  match it with
  | .integer v t raw => intNew raw t (f v)
  | i => i

/-- Wherever the claim holds it can be iterated: an unsigned text and non-negative results stay readable for any
sequence of operations. -/
theorem C09_history (n : Int) (h0 : 0 ≤ n) (fs : List (Int → Int)) (hf : ∀ f ∈ fs, ∀ x, 0 ≤ x → 0 ≤ f x) :
    ∃ w raw t, fs.foldl intApply (intItem n) = .integer w t raw ∧ w = fs.foldl (fun x f => f x) n ∧
      ∃ t' o, apiValue raw = .ok (.integer w t' o) := by
  have key : ∀ (fs : List (Int → Int)), (∀ f ∈ fs, ∀ x, 0 ≤ x → 0 ≤ f x) → ∀ (v : Int) (t : Trivia), 0 ≤ v →
      ∃ w t', fs.foldl intApply (.integer v t (intText v)) = .integer w t' (intText w) ∧ w = fs.foldl (fun x f => f x) v := by
    intro fs
    induction fs with
    | nil => intro _ v t _; exact ⟨v, t, rfl, rfl⟩
    | cons f fs ih =>
      intro hf v t hv
      have hns : intSigned (intText v) = false := by
        obtain ⟨h1, -, h3, -, -⟩ := natDigits_spec (v.natAbs + 1) v.natAbs (by omega)
        have : intText v = natText v.natAbs := by simp [intText]; omega
        rw [this]
        unfold natText
        cases hh : natDigits (v.natAbs + 1) v.natAbs with
        | nil => exact absurd hh h3
        | cons c r =>
          have := h1 c (by rw [hh]; simp)
          have e1 : ¬ c = 43 := by omega
          have e2 : ¬ c = 45 := by omega
          simp [intSigned, e1, e2]
      have hstep : intApply (.integer v t (intText v)) f = .integer (f v) t (intText (f v)) := by
        simp [intApply, intNew, hns]
      simp only [List.foldl_cons, hstep]
      exact ih (fun g hg => hf g (by simp [hg])) (f v) t (hf f (by simp) v hv)
  obtain ⟨w, t', h1, h2⟩ := key fs hf n {} h0
  refine ⟨w, intText w, t', h1, h2, {}, intText w, ?_⟩
  have := C06_integers_survive w
  simpa [intItem, Item.asString] using this

/-- `item(-5) + 1` is written `--4`, which is no TOML value. -/
theorem C09_counterexample :
    (intNew (intItem (-5)).asString {} (-5 + 1)).asString = t!"--4" ∧
    (apiValue (t!"--4")).toOption.isNone = true := by
  decide +kernel

example : Printable (t!"-5") ∧ SignAndDigits (t!"-5") ∧ ¬ SignAndDigits (t!"5") := by
  refine ⟨by unfold Printable; decide, ⟨45, [53], rfl, Or.inr rfl, by simp, ?_⟩, ?_⟩
  · intro c hc; simp at hc; subst hc; exact ⟨5, rfl, by omega⟩
  · rintro ⟨sg, ds, h, h1, _⟩; simp at h; omega

end Tomlkit
