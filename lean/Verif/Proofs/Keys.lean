import Verif.Proofs.Strings
/-! The key parser on rendered keys. -/
namespace Tomlkit

theorem takeWhile_append_stop {p : Chr → Bool} {k : Str} (h : ∀ c ∈ k, p c = true) {d : Chr} (hd : p d = false)
    (tail : Str) : (k ++ d :: tail).takeWhile p = k := by
  induction k with
  | nil => simp [hd]
  | cons c k ih =>
    simp [h c (by simp), ih fun x hx => h x (by simp [hx])]

theorem dropWhile_append_stop {p : Chr → Bool} {k : Str} (h : ∀ c ∈ k, p c = true) {d : Chr} (hd : p d = false)
    (tail : Str) : (k ++ d :: tail).dropWhile p = d :: tail := by
  induction k with
  | nil => simp [hd]
  | cons c k ih =>
    simp [h c (by simp), ih fun x hx => h x (by simp [hx])]

theorem bare_not_space {c : Chr} (h : isBareChar c = true) : isUniSpace c = false := by
  simp only [isBareChar, isAsciiLetter, isDigit, Bool.or_eq_true, Bool.and_eq_true, decide_eq_true_eq,
    beq_iff_eq] at h
  simp only [isUniSpace, Bool.or_eq_false_iff, Bool.and_eq_false_iff, decide_eq_false_iff_not,
    beq_eq_false_iff_ne]
  omega

theorem dropWhile_none {p : Chr → Bool} {k : Str} (h : ∀ c ∈ k, p c = false) : k.dropWhile p = k := by
  cases k with
  | nil => rfl
  | cons c k => simp [h c (by simp)]

theorem strip_bare {k : Str} (h : ∀ c ∈ k, isBareChar c = true) : strip k = k := by
  have h' : ∀ c ∈ k, isUniSpace c = false := fun c hc => bare_not_space (h c hc)
  unfold strip
  rw [dropWhile_none h', dropWhile_none (by simpa using h')]
  simp

theorem bare_spec {k : Str} (h : needsQuotes k = false) : k ≠ [] ∧ ∀ c ∈ k, isBareChar c = true := by
  unfold needsQuotes at h
  simp at h
  exact h

/-- One rendered key part, followed by a dot or an equals sign. -/
theorem parseKey_part (k : Str) (d : Chr) (hd : d = 46 ∨ d = 61) (n : Nat) (tail e : Str) (a : List Key)
    (l : List Loss) : ∃ sk e', sk.key = k ∧
      parseKey (n + 1) ⟨(mkKey k).orig ++ d :: tail, e, a, l⟩ =
        if d = 46 then
          match parseKey n ⟨tail, e' ++ [46], a, l⟩ with
          | .ok k2 st => .ok ((Key.single sk).concat k2) st
          | .err er st => .err er st
        else .ok (.single sk) ⟨d :: tail, e', a, l⟩ := by
  have hd34 : d ≠ 34 := by rcases hd with h | h <;> simp [h]
  have hsp : isSpaces d = false := by rcases hd with h | h <;> simp [h, isSpaces]
  cases hq : needsQuotes k with
  | true =>
    simp only [mkKey, hq, if_true, escapeString_basic]
    obtain ⟨e1, h1⟩ := parseString_slb k (d :: tail) [] a l (by simpa using hd34)
    refine ⟨SKey.mk k .basic [] ([] ++ ([34] ++ escEach slbEsc k ++ [34]) ++ []) false, [], rfl, ?_⟩
    have h34 : isSpaces 34 = false := rfl
    conv => lhs; unfold parseKey
    simp [h34, P.bind_def, h1, StrType.isMultiline, hsp, StrType.value]
    rcases hd with rfl | rfl
    · simp [P.bind_def]
      cases parseKey n _ <;> rfl
    · simp
  | false =>
    obtain ⟨hne, hb⟩ := bare_spec hq
    simp only [mkKey, hq]
    obtain ⟨c, k', rfl⟩ : ∃ c k', k = c :: k' := by
      cases k with
      | nil => exact absurd rfl hne
      | cons c k' => exact ⟨c, k', rfl⟩
    have hc := hb c (by simp)
    have hcs : isSpaces c = false ∧ c ≠ 34 ∧ c ≠ 39 := by
      simp only [isBareChar, isAsciiLetter, isDigit, Bool.or_eq_true, Bool.and_eq_true, decide_eq_true_eq,
        beq_iff_eq] at hc
      simp only [isSpaces, Bool.or_eq_false_iff, beq_eq_false_iff_ne]
      omega
    have hstop : (isBareChar d || isSpaces d) = false := by rcases hd with h | h <;> simp [h] <;> decide
    have hall : ∀ x ∈ c :: k', (isBareChar x || isSpaces x) = true := fun x hx => by simp [hb x hx]
    have t1 := takeWhile_append_stop (p := fun c => isBareChar c || isSpaces c) hall hstop tail
    have t2 := dropWhile_append_stop (p := fun c => isBareChar c || isSpaces c) hall hstop tail
    refine ⟨{ key := c :: k', t := .bare, sep := [], orig := c :: k' }, c :: k', rfl, ?_⟩
    have h32 : (c :: k').contains 32 = false := by
      cases hh : (c :: k').contains 32
      · rfl
      · have := hb 32 (by simpa using hh)
        simp [isBareChar, isAsciiLetter, isDigit] at this
    have s1 : ((c :: k') ++ d :: tail).takeWhile isSpaces = [] := by simp [hcs.1]
    have s2 : ((c :: k') ++ d :: tail).dropWhile isSpaces = (c :: k') ++ d :: tail := by simp [hcs.1]
    have s3 : ∀ e, (St.mk ((c :: k') ++ d :: tail) e a l).cur = c := fun _ => rfl
    simp only [Bool.false_eq_true, if_false]
    generalize (c :: k') ++ d :: tail = X at *
    conv => lhs; unfold parseKey
    simp only [mark_bind, skip_bind, getSt_bind, s1, s2, s3, hcs.2.1, hcs.2.2, decide_false, Bool.or_self,
      Bool.false_eq_true, if_false, extract_bind, t1, t2, List.append_nil, List.nil_append, strip_bare hb, h32,
      List.isEmpty_cons, St.cur_cons]
    rcases hd with rfl | rfl
    · simp [P.bind_def]
      cases parseKey n _ <;> rfl
    · simp

/-- The rendered list of names, followed by an equals sign. -/
theorem parseKey_dotted (ks : List Str) (hne : ks ≠ []) : ∀ (n : Nat) (tail e : Str) (a : List Key) (l : List Loss),
    ks.length ≤ n →
    ∃ key e', key.parts.map SKey.key = ks ∧
      parseKey n ⟨joinDot (ks.map fun k => (mkKey k).orig) ++ 61 :: tail, e, a, l⟩ = .ok key ⟨61 :: tail, e', a, l⟩ := by
  induction ks with
  | nil => exact absurd rfl hne
  | cons k ks ih =>
    intro n tail e a l hn
    obtain ⟨n, rfl⟩ : ∃ m, n = m + 1 := ⟨n - 1, by simp at hn; omega⟩
    cases ks with
    | nil =>
      obtain ⟨sk, e', hk, h⟩ := parseKey_part k 61 (Or.inr rfl) n tail e a l
      exact ⟨.single sk, e', by simp [Key.parts, hk], by simpa [joinDot] using h⟩
    | cons k2 ks =>
      obtain ⟨sk, e', hk, h⟩ := parseKey_part k 46 (Or.inl rfl) n
        (joinDot ((k2 :: ks).map fun k => (mkKey k).orig) ++ 61 :: tail) e a l
      obtain ⟨key, e2, hkey, h2⟩ := ih (by simp) n tail (e' ++ [46]) a l (by simp at hn; simp; omega)
      refine ⟨(Key.single sk).concat key, e2, by simp [Key.concat, Key.parts, hk]; exact hkey, ?_⟩
      have e1 : joinDot ((k :: k2 :: ks).map fun k => (mkKey k).orig) ++ 61 :: tail =
          (mkKey k).orig ++ 46 :: (joinDot ((k2 :: ks).map fun k => (mkKey k).orig) ++ 61 :: tail) := by
        simp [joinDot]
      rw [e1, h, if_pos rfl, h2]

end Tomlkit
