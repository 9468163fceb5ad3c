import Verif.Proofs.ReadDoc
import Verif.Proofs.Tables
/-!
# Reading the headers of tables
-/
namespace Tomlkit
open _root_.Spec Tomlkit.Spec

/-- a key made of these names -/
structure KeyPath (K : Key) (q : List Str) : Prop where
  keys : K.parts.map SKey.key = q
  plain : ∀ p ∈ K.parts, p.dotted = false
  nospace : ∀ p ∈ K.parts, p.t = .bare → (strip p.key).contains 32 = false
  shape : (∃ s, K = .single s) ↔ q.length = 1

/-- In front of a bracket the text is read as this list of names. -/
def HeadReads (H : Str) (q : List Str) : Prop :=
  (∃ c r, H = c :: r ∧ c ≠ 91) ∧
  ∀ (r e : Str) (a : List Key) (l : List Loss), ∃ K e', headerKey ⟨H ++ 93 :: r, e, a, l⟩ = .ok K ⟨93 :: r, e', a, l⟩ ∧ KeyPath K q

theorem KeyPath.setSep {K : Key} {q : List Str} (h : KeyPath K q) (s : Str) : KeyPath (K.setSep s) q := by
  obtain ⟨h1, h2, h3, h4⟩ := h
  cases K with
  | single k =>
    refine ⟨h1, ?_, ?_, ?_⟩
    · intro p hp
      simp only [Key.setSep, Key.parts, List.mem_singleton] at hp
      subst hp
      exact h2 k (by simp [Key.parts])
    · intro p hp ht
      simp only [Key.setSep, Key.parts, List.mem_singleton] at hp
      subst hp
      exact h3 k (by simp [Key.parts]) ht
    · exact ⟨fun _ => h4.1 ⟨_, rfl⟩, fun _ => ⟨_, rfl⟩⟩
  | dotted ks sp o =>
    refine ⟨h1, h2, h3, ?_⟩
    refine ⟨fun ⟨s, hs⟩ => (by cases hs), fun hq => ?_⟩
    obtain ⟨_, hs⟩ := h4.2 hq
    cases hs

theorem eqv_path {K K' : Key} {p q : List Str} (h : KeyPath K p) (h' : KeyPath K' q) : Key.eqv K K' = decide (p = q) := by
  obtain ⟨h1, _, _, h4⟩ := h
  obtain ⟨h1', _, _, h4'⟩ := h'
  subst h1 h1'
  cases K with
  | single k =>
    cases K' with
    | single k' =>
      simp only [Key.eqv, Key.parts, List.map_cons, List.map_nil, List.cons.injEq, and_true]
      rw [Bool.eq_iff_iff, beq_iff_eq, decide_eq_true_iff]
    | dotted ks' sp' o' =>
      have : ¬ ((Key.dotted ks' sp' o').parts.map SKey.key).length = 1 := fun hq => by
        obtain ⟨_, hs⟩ := h4'.2 hq; cases hs
      simp only [Key.eqv]
      symm
      rw [decide_eq_false_iff_not]
      intro h0
      rw [← h0] at this
      exact this (by simp [Key.parts])
  | dotted ks sp o =>
    have : ¬ ((Key.dotted ks sp o).parts.map SKey.key).length = 1 := fun hq => by
      obtain ⟨_, hs⟩ := h4.2 hq; cases hs
    cases K' with
    | single k' =>
      simp only [Key.eqv]
      symm
      rw [decide_eq_false_iff_not]
      intro h0
      rw [h0] at this
      exact this (by simp [Key.parts])
    | dotted ks' sp' o' =>
      rw [Bool.eq_iff_iff, decide_eq_true_iff]
      simp only [Key.eqv, Key.parts, beq_iff_eq]

theorem eqv_single_long {s : SKey} {K : Key} {q : List Str} (h : KeyPath K q) (hq : q.length ≠ 1) : Key.eqv (.single s) K = false := by
  cases K with
  | single k => exact absurd (h.shape.1 ⟨_, rfl⟩) hq
  | dotted => rfl

theorem isChild_path {K K' : Key} {p q : List Str} (h : KeyPath K p) (h' : KeyPath K' q) :
    isChild K K' = decide (p ≠ q ∧ p = q.take p.length) := by
  unfold isChild
  simp only [h.keys, h'.keys]
  by_cases hpq : p = q
  · simp [hpq]
  · simp [hpq]

/-- the text starts with this header -/
def Peeks (text : Str) (isAot : Bool) (q : List Str) : Prop :=
  ∃ H r, HeadReads H q ∧ text = headOpen isAot ++ (H ++ 93 :: r)

theorem Peeks.cons {text : Str} {b : Bool} {q : List Str} (h : Peeks text b q) : ∃ r, text = 91 :: r := by
  obtain ⟨H, r, _, rfl⟩ := h
  cases b <;> exact ⟨_, rfl⟩

theorem peek_reads {text : Str} {b : Bool} {q : List Str} (h : Peeks text b q) (e : Str) (a : List Key) (l : List Loss) :
    ∃ K, peekTable ⟨text, e, a, l⟩ = .ok (b, K) ⟨text, e, a, l⟩ ∧ KeyPath K q := by
  obtain ⟨H, r, ⟨⟨c, H', rfl, hc⟩, hr⟩, rfl⟩ := h
  cases b with
  | true =>
    obtain ⟨K, e', hK, hp⟩ := hr r (e ++ [91] ++ [91]) a l
    refine ⟨K, ?_, hp⟩
    unfold peekTable peeking
    simp only [headOpen, if_true, List.cons_append, List.nil_append]
    rw [getSt_bind, if_neg (by simp [St.cur]), step_bind_cons, getSt_bind, if_pos (by simp [St.cur]), step_bind_cons, P.bind_def]
    rw [List.cons_append] at hK
    rw [hK]
    rfl
  | false =>
    obtain ⟨K, e', hK, hp⟩ := hr r (e ++ [91]) a l
    refine ⟨K, ?_, hp⟩
    unfold peekTable peeking
    simp only [headOpen, Bool.false_eq_true, if_false, List.cons_append, List.nil_append]
    rw [getSt_bind, if_neg (by simp [St.cur]), step_bind_cons, getSt_bind, if_neg (by simpa [St.cur] using hc), P.bind_def]
    rw [List.cons_append] at hK
    rw [hK]
    rfl

/-- a header line -/
theorem header_reads {H : Str} {q : List Str} (hH : HeadReads H q) {b cm nl t : Str} (hb : Spaces b) (hc : Cmt cm) (hn : Eol nl t)
    (isAot : Bool) (e : Str) (a : List Key) (l : List Loss) :
    ∃ h e' l', parseHeader ⟨headOpen isAot ++ (H ++ (headClose isAot ++ (b ++ (cm ++ (nl ++ t))))), e, a, l⟩ = .ok h ⟨t, e', a, l'⟩ ∧
      h.indent = e ∧ h.isAot = isAot ∧ KeyPath h.key q ∧ h.comment = cm := by
  obtain ⟨⟨c, H', rfl, hc91⟩, hr⟩ := hH
  cases isAot with
  | true =>
    obtain ⟨K, e', hK, hp⟩ := hr (93 :: (b ++ (cm ++ (nl ++ t)))) (e ++ [91] ++ [91]) a l
    have hp' := hp.setSep []
    obtain ⟨cws, tr, e2, hT, _⟩ := trail_reads hb hc hn (e' ++ [93] ++ [93]) a l
    have hany : ¬ (((K.setSep []).parts.any fun p => (strip p.key).contains 32 && p.t == .bare) = true) := by
      rw [List.any_eq_true]
      rintro ⟨p, hp0, hp1⟩
      rw [Bool.and_eq_true, beq_iff_eq] at hp1
      rw [hp'.nospace p hp0 hp1.2] at hp1
      cases hp1.1
    refine ⟨⟨e, true, K.setSep [], cws, cm, tr⟩, e2, l ++ (if (!hasNl tr && !(St.mk t e2 a l).atEnd) then [.headerCr] else []), ?_, rfl, rfl, hp', rfl⟩
    unfold parseHeader
    simp only [headOpen, headClose, if_true, List.cons_append, List.nil_append]
    rw [getSt_bind, if_neg (by simp [St.cur]), extract_bind, step_bind_cons, getSt_bind, if_neg (by simp [St.atEnd])]
    have hcur : decide ((St.mk (91 :: c :: (H' ++ 93 :: 93 :: (b ++ (cm ++ (nl ++ t))))) (e ++ [91]) a l).cur = 91) = true := rfl
    simp only [List.nil_append] at hK ⊢
    rw [hcur]
    simp only [if_true, Bool.true_and]
    rw [step_bind_cons, getSt_bind, if_neg (by simp [St.atEnd]), P.bind_def]
    rw [List.cons_append] at hK
    rw [hK]
    dsimp only
    rw [getSt_bind, if_neg (by simp [St.atEnd]), if_neg (by simp [St.cur]), if_neg hany, step_bind_cons, getSt_bind, P.bind_def, note_ok]
    dsimp only
    have h93 : ((St.mk (93 :: (b ++ (cm ++ (nl ++ t)))) (e' ++ [93]) a l).cur != 93) = false := rfl
    rw [h93]
    simp only [Bool.false_eq_true, if_false, List.append_nil]
    rw [step_bind_cons, P.bind_def, hT]
    dsimp only
    rw [getSt_bind, P.bind_def, note_ok]
    rfl
  | false =>
    obtain ⟨K, e', hK, hp⟩ := hr (b ++ (cm ++ (nl ++ t))) (e ++ [91]) a l
    have hp' := hp.setSep []
    obtain ⟨cws, tr, e2, hT, _⟩ := trail_reads hb hc hn (e' ++ [93]) a l
    have hany : ¬ (((K.setSep []).parts.any fun p => (strip p.key).contains 32 && p.t == .bare) = true) := by
      rw [List.any_eq_true]
      rintro ⟨p, hp0, hp1⟩
      rw [Bool.and_eq_true, beq_iff_eq] at hp1
      rw [hp'.nospace p hp0 hp1.2] at hp1
      cases hp1.1
    refine ⟨⟨e, false, K.setSep [], cws, cm, tr⟩, e2, l ++ (if (!hasNl tr && !(St.mk t e2 a l).atEnd) then [.headerCr] else []), ?_, rfl, rfl, hp', rfl⟩
    unfold parseHeader
    simp only [headOpen, headClose, Bool.false_eq_true, if_false, List.cons_append, List.nil_append]
    rw [getSt_bind, if_neg (by simp [St.cur]), extract_bind, step_bind_cons, getSt_bind, if_neg (by simp [St.atEnd])]
    have hcur : decide ((St.mk (c :: (H' ++ 93 :: (b ++ (cm ++ (nl ++ t))))) (e ++ [91]) a l).cur = 91) = false := by
      rw [decide_eq_false_iff_not]; simpa [St.cur] using hc91
    simp only [List.nil_append] at hK ⊢
    rw [hcur]
    simp only [Bool.false_eq_true, if_false, Bool.false_and]
    rw [getSt_bind, P.bind_def]
    rw [List.cons_append] at hK
    rw [hK]
    dsimp only
    rw [getSt_bind, if_neg (by simp [St.atEnd]), if_neg (by simp [St.cur]), if_neg hany, step_bind_cons, getSt_bind, P.bind_def, note_ok]
    dsimp only
    simp only [Bool.false_eq_true, if_false, List.append_nil]
    rw [P.bind_def, hT]
    dsimp only
    rw [getSt_bind, P.bind_def, note_ok]
    rfl

/-! ## Rendered headers -/

/-- One rendered name, followed by a dot or a bracket. -/
theorem parseKey_partH (k : Str) (d : Chr) (hd : d = 46 ∨ d = 93) (n : Nat) (tail e : Str) (a : List Key)
    (l : List Loss) : ∃ sk e', sk.key = k ∧ sk.dotted = false ∧ (sk.t = .bare → (strip sk.key).contains 32 = false) ∧
      parseKey (n + 1) ⟨(mkKey k).orig ++ d :: tail, e, a, l⟩ =
        if d = 46 then
          match parseKey n ⟨tail, e' ++ [46], a, l⟩ with
          | .ok k2 st => .ok ((Key.single sk).concat k2) st
          | .err er st => .err er st
        else .ok (.single sk) ⟨d :: tail, e', a, l⟩ := by
  have hd34 : d ≠ 34 := by rcases hd with h | h <;> simp [h]
  have hsp : isSpaces d = false := by rcases hd with h | h <;> simp [h, isSpaces]
  cases hq : needsQuotes k with
  | true =>
    simp only [mkKey, hq, if_true, escapeString_basic]
    obtain ⟨e1, h1⟩ := parseString_slb k (d :: tail) [] a l (by simpa using hd34)
    refine ⟨SKey.mk k .basic [] ([] ++ ([34] ++ escEach slbEsc k ++ [34]) ++ []) false, [], rfl, rfl, (fun h => by cases h), ?_⟩
    have h34 : isSpaces 34 = false := rfl
    conv => lhs; unfold parseKey
    simp [h34, P.bind_def, h1, StrType.isMultiline, hsp, StrType.value]
    rcases hd with rfl | rfl
    · simp [P.bind_def]
      cases parseKey n _ <;> rfl
    · simp
  | false =>
    obtain ⟨hne, hb⟩ := bare_spec hq
    simp only [mkKey, hq]
    obtain ⟨c, k', rfl⟩ : ∃ c k', k = c :: k' := by
      cases k with
      | nil => exact absurd rfl hne
      | cons c k' => exact ⟨c, k', rfl⟩
    have hc := hb c (by simp)
    have hcs : isSpaces c = false ∧ c ≠ 34 ∧ c ≠ 39 := by
      simp only [isBareChar, isAsciiLetter, isDigit, Bool.or_eq_true, Bool.and_eq_true, decide_eq_true_eq,
        beq_iff_eq] at hc
      simp only [isSpaces, Bool.or_eq_false_iff, beq_eq_false_iff_ne]
      omega
    have hstop : (isBareChar d || isSpaces d) = false := by rcases hd with h | h <;> simp [h] <;> decide
    have hall : ∀ x ∈ c :: k', (isBareChar x || isSpaces x) = true := fun x hx => by simp [hb x hx]
    have t1 := takeWhile_append_stop (p := fun c => isBareChar c || isSpaces c) hall hstop tail
    have t2 := dropWhile_append_stop (p := fun c => isBareChar c || isSpaces c) hall hstop tail
    have h32 : (c :: k').contains 32 = false := by
      cases hh : (c :: k').contains 32
      · rfl
      · have := hb 32 (by simpa using hh)
        simp [isBareChar, isAsciiLetter, isDigit] at this
    refine ⟨{ key := c :: k', t := .bare, sep := [], orig := c :: k' }, c :: k', rfl, rfl, fun _ => ?_, ?_⟩
    · rw [strip_bare hb]; exact h32
    have s1 : ((c :: k') ++ d :: tail).takeWhile isSpaces = [] := by simp [hcs.1]
    have s2 : ((c :: k') ++ d :: tail).dropWhile isSpaces = (c :: k') ++ d :: tail := by simp [hcs.1]
    have s3 : ∀ e, (St.mk ((c :: k') ++ d :: tail) e a l).cur = c := fun _ => rfl
    simp only [Bool.false_eq_true, if_false]
    generalize (c :: k') ++ d :: tail = X at *
    conv => lhs; unfold parseKey
    simp only [mark_bind, skip_bind, getSt_bind, s1, s2, s3, hcs.2.1, hcs.2.2, decide_false, Bool.or_self,
      Bool.false_eq_true, if_false, extract_bind, t1, t2, List.append_nil, List.nil_append, strip_bare hb, h32,
      List.isEmpty_cons, St.cur_cons]
    rcases hd with rfl | rfl
    · simp [P.bind_def]
      cases parseKey n _ <;> rfl
    · simp

theorem parseKey_path (ks : List Str) (hne : ks ≠ []) : ∀ (n : Nat) (tail e : Str) (a : List Key) (l : List Loss),
    ks.length ≤ n →
    ∃ key e', KeyPath key ks ∧
      parseKey n ⟨joinDot (ks.map fun k => (mkKey k).orig) ++ 93 :: tail, e, a, l⟩ = .ok key ⟨93 :: tail, e', a, l⟩ := by
  induction ks with
  | nil => exact absurd rfl hne
  | cons k ks ih =>
    intro n tail e a l hn
    obtain ⟨n, rfl⟩ : ∃ m, n = m + 1 := ⟨n - 1, by simp at hn; omega⟩
    cases ks with
    | nil =>
      obtain ⟨sk, e', hk, hd, hs, h⟩ := parseKey_partH k 93 (Or.inr rfl) n tail e a l
      refine ⟨.single sk, e', ⟨by simp [Key.parts, hk], ?_, ?_, ?_⟩, by simpa [joinDot] using h⟩
      · intro p hp; simp only [Key.parts, List.mem_singleton] at hp; subst hp; exact hd
      · intro p hp; simp only [Key.parts, List.mem_singleton] at hp; subst hp; exact hs
      · exact ⟨fun _ => rfl, fun _ => ⟨_, rfl⟩⟩
    | cons k2 ks =>
      obtain ⟨sk, e', hk, hd, hs, h⟩ := parseKey_partH k 46 (Or.inl rfl) n
        (joinDot ((k2 :: ks).map fun k => (mkKey k).orig) ++ 93 :: tail) e a l
      obtain ⟨key, e2, hkey, h2⟩ := ih (by simp) n tail (e' ++ [46]) a l (by simp at hn; simp; omega)
      refine ⟨(Key.single sk).concat key, e2, ⟨by simp only [Key.concat, Key.parts, List.map_append, List.map_cons, List.map_nil, hk]; rw [← hkey.keys]; rfl, ?_, ?_, ?_⟩, ?_⟩
      · intro p hp
        simp only [Key.concat, Key.parts, List.cons_append, List.nil_append, List.mem_cons] at hp
        rcases hp with rfl | hp
        · exact hd
        · exact hkey.plain p hp
      · intro p hp
        simp only [Key.concat, Key.parts, List.cons_append, List.nil_append, List.mem_cons] at hp
        rcases hp with rfl | hp
        · exact hs
        · exact hkey.nospace p hp
      · exact ⟨fun ⟨s, hs⟩ => (by cases hs), fun h => by simp at h⟩
      have e1 : joinDot ((k :: k2 :: ks).map fun k => (mkKey k).orig) ++ 93 :: tail =
          (mkKey k).orig ++ 46 :: (joinDot ((k2 :: ks).map fun k => (mkKey k).orig) ++ 93 :: tail) := by
        simp [joinDot]
      rw [e1, h, if_pos rfl, h2]

theorem mkKey_orig_head (k : Str) : ∃ c r, (mkKey k).orig = c :: r ∧ c ≠ 91 := by
  obtain ⟨⟨c, r, h, _, _, _, _, _, h91⟩, _⟩ := keyReads_mkKey k (b := []) (fun _ h => by cases h)
  exact ⟨c, r, by simpa using h, h91⟩

/-- the names as the library writes them -/
theorem headReads_join {ks : List Str} (hne : ks ≠ []) : HeadReads (joinDot (ks.map fun k => (mkKey k).orig)) ks := by
  refine ⟨?_, fun r e a l => ?_⟩
  · rcases ks with _ | ⟨k, _ | ⟨k2, r⟩⟩
    · exact absurd rfl hne
    · exact mkKey_orig_head k
    · obtain ⟨c, r', h1, h2⟩ := mkKey_orig_head k
      exact ⟨c, _, by simp only [List.map_cons, joinDot, h1, List.cons_append]; rfl, h2⟩
  · have hlen : ∀ ks : List Str, ks.length ≤ (joinDot (ks.map fun k => (mkKey k).orig)).length := by
      intro ks
      induction ks with
      | nil => simp
      | cons k ks ih =>
        obtain ⟨c, r', h1, h2⟩ := mkKey_orig_head k
        cases ks with
        | nil => simp [joinDot, h1]
        | cons k2 r =>
          simp only [List.map_cons, joinDot, List.length_append, List.length_cons, h1] at ih ⊢
          omega
    obtain ⟨K, e', h1, h2⟩ := parseKey_path ks hne _ r e a l
      (show ks.length ≤ (joinDot (ks.map fun k => (mkKey k).orig) ++ 93 :: r).length + 1 by have := hlen ks; simp; omega)
    refine ⟨K, e', ?_, h1⟩
    unfold headerKey parseKeyHere
    rw [getSt_bind, h2]

end Tomlkit
