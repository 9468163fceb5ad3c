import Verif.Proofs.ReadToml
import Verif.Proofs.DocReads
/-!
# Keys with dots
-/
namespace Tomlkit
open _root_.Spec Tomlkit.Spec

/-- what happens after a part of a key -/
def afterPart (n : Nat) (sk : SKey) (d : Chr) (tail e : Str) (a : List Key) (l : List Loss) : Res Key :=
  if d = 46 then
    match parseKey n ⟨tail, e ++ [46], a, l⟩ with
    | .ok k2 st => .ok ((Key.single sk).concat k2) st
    | .err er st => .err er st
  else .ok (.single sk) ⟨d :: tail, e, a, l⟩

theorem afterPart_eq (n : Nat) (sk : SKey) (d : Chr) (tail e : Str) (a : List Key) (l : List Loss) :
    (getSt >>= fun st => if st.cur = 46 then (step >>= fun _ => parseKey n >>= fun k => Pure.pure ((Key.single sk).concat k)) else Pure.pure (.single sk) : P Key)
      ⟨d :: tail, e, a, l⟩ = afterPart n sk d tail e a l := by
  rw [getSt_bind]
  unfold afterPart
  by_cases h : d = 46
  · subst h
    rw [if_pos rfl, if_pos (by rfl), step_bind_cons, P.bind_def]
    cases parseKey n _ <;> rfl
  · rw [if_neg h, if_neg (by simpa [St.cur] using h)]
    rfl

theorem strip_surrounded {k b1 b2 : Str} (h : ∀ c ∈ k, isBareChar c = true) (hne : k ≠ []) (h1 : Spaces b1) (h2 : Spaces b2) :
    strip (b1 ++ (k ++ b2)) = k := by
  have e : strip (b1 ++ (k ++ b2)) = strip (k ++ b2) := by
    unfold strip
    have : (b1 ++ (k ++ b2)).dropWhile isUniSpace = (k ++ b2).dropWhile isUniSpace := by
      induction b1 with
      | nil => rfl
      | cons c b1 ih =>
        have hc : isUniSpace c = true := by
          have := h1 c (by simp)
          simp only [isSpaces, Bool.or_eq_true, beq_iff_eq] at this
          rcases this with rfl | rfl <;> rfl
        rw [List.cons_append, List.dropWhile_cons, hc, if_pos rfl]
        exact ih fun x hx => h1 x (by simp [hx])
    rw [this]
  rw [e, strip_bare_spaces h hne h2]

/-- A key text with blanks around it, in front of a dot, an equals sign or a bracket. -/
theorem parseKey_text {s k b1 b2 : Str} (h : KeyText s k) (h1 : Spaces b1) (h2 : Spaces b2) {d : Chr} (hd : d = 46 ∨ d = 93 ∨ d = 61 ∨ d = 44) :
    ∃ sk, sk.key = k ∧ sk.dotted = false ∧ sk.sep = [] ∧ sk.orig = b1 ++ (s ++ b2) ∧ (sk.t = .bare → (strip sk.key).contains 32 = false) ∧
      ∀ (n : Nat) (tail e : Str) (a : List Key) (l : List Loss), ∃ e',
      parseKey (n + 1) ⟨b1 ++ (s ++ (b2 ++ d :: tail)), e, a, l⟩ = afterPart n sk d tail e' a l := by
  have hsd : isSpaces d = false := by rcases hd with rfl | rfl | rfl | rfl <;> rfl
  have hbd : isBareChar d = false := by rcases hd with rfl | rfl | rfl | rfl <;> rfl
  have hq : ∀ (x : Chr) (d' : StrType) (kt : KeyType) (o : Str), (d' = .slb ∧ x = 34 ∧ kt = .basic ∨ d' = .sll ∧ x = 39 ∧ kt = .literal) →
      (∀ tail a l, tail.head? ≠ some x → ∃ e', parseString d' ⟨x :: (o ++ x :: tail), b1, a, l⟩ = .ok (.str d' k o {}) ⟨tail, e', a, l⟩) →
      s = x :: (o ++ [x]) →
      ∃ sk, sk.key = k ∧ sk.dotted = false ∧ sk.sep = [] ∧ sk.orig = b1 ++ (s ++ b2) ∧ (sk.t = .bare → (strip sk.key).contains 32 = false) ∧
      ∀ (n : Nat) (tail e : Str) (a : List Key) (l : List Loss), ∃ e',
      parseKey (n + 1) ⟨b1 ++ (s ++ (b2 ++ d :: tail)), e, a, l⟩ = afterPart n sk d tail e' a l := by
    rintro x d' kt o hx hp rfl
    refine ⟨SKey.mk k kt [] (b1 ++ ([x] ++ o ++ [x]) ++ b2) false, rfl, rfl, rfl, by simp, ?_, fun n tail e a l => ?_⟩
    · rcases hx with ⟨_, _, rfl⟩ | ⟨_, _, rfl⟩ <;> intro h <;> cases h
    · have hxs : isSpaces x = false := by rcases hx with ⟨_, rfl, _⟩ | ⟨_, rfl, _⟩ <;> rfl
      have hhd : (b2 ++ d :: tail).head? ≠ some x := by
        rcases b2 with _ | ⟨c, r⟩
        · rcases hd with rfl | rfl | rfl | rfl <;> rcases hx with ⟨_, rfl, _⟩ | ⟨_, rfl, _⟩ <;> simp
        · intro h
          simp only [List.cons_append, List.head?_cons, Option.some.injEq] at h
          subst h
          rw [h2 c (by simp)] at hxs
          cases hxs
      obtain ⟨e1, hs⟩ := hp (b2 ++ d :: tail) a l hhd
      have u1 := takeWhile_append_stop (p := isSpaces) h1 hxs (o ++ x :: (b2 ++ d :: tail))
      have u2 := dropWhile_append_stop (p := isSpaces) h1 hxs (o ++ x :: (b2 ++ d :: tail))
      have t1 := takeWhile_append_stop (p := isSpaces) h2 hsd tail
      have t2 := dropWhile_append_stop (p := isSpaces) h2 hsd tail
      refine ⟨b2, ?_⟩
      have e0 : b1 ++ (x :: (o ++ [x]) ++ (b2 ++ d :: tail)) = b1 ++ x :: (o ++ x :: (b2 ++ d :: tail)) := by simp
      rw [e0]
      generalize b1 ++ x :: (o ++ x :: (b2 ++ d :: tail)) = X at *
      conv => lhs; unfold parseKey
      rw [mark_bind, skip_bind, getSt_bind, u1, u2]
      rw [← afterPart_eq]
      rcases hx with ⟨rfl, rfl, rfl⟩ | ⟨rfl, rfl, rfl⟩
      · rw [if_pos (by rfl)]
        rw [extract_bind]
        refine (bind_step hs).trans ?_
        dsimp only
        rw [if_neg (by decide), mark_bind, skip_bind, t1, t2, extract_bind]
        rfl
      · rw [if_pos (by rfl)]
        rw [extract_bind]
        refine (bind_step hs).trans ?_
        dsimp only
        rw [if_neg (by decide), mark_bind, skip_bind, t1, t2, extract_bind]
        rfl
  cases h with
  | basic o v h => exact hq 34 .slb .basic o (.inl ⟨rfl, rfl, rfl⟩) (fun tail a l ht => parseString_body (basicBody_code h) tail _ a l ht) rfl
  | literal o h => exact hq 39 .sll .literal k (.inr ⟨rfl, rfl, rfl⟩) (fun tail a l ht => parseString_sll _ tail _ a l (plainLiteral_ok h) ht) rfl
  | bare _ hne h =>
    have hbare : ∀ c ∈ s, isBareChar c = true := fun c hc => bareChar_code (h c hc)
    have h32 : s.contains 32 = false := by
      cases hh : s.contains 32
      · rfl
      · have := hbare 32 (by simpa using hh)
        cases this
    refine ⟨{ key := s, t := .bare, sep := [], orig := b1 ++ (s ++ b2) }, rfl, rfl, rfl, rfl, fun _ => by rw [strip_bare hbare]; exact h32, fun n tail e a l => ?_⟩
    obtain ⟨c, s', rfl⟩ : ∃ c s', s = c :: s' := List.exists_cons_of_ne_nil hne
    obtain ⟨_, _, _, _, _, _, q7, q8, q9, _⟩ := bare_head (hbare c (by simp))
    have hall : ∀ x ∈ (c :: s') ++ b2, (isBareChar x || isSpaces x) = true := fun x hx => by
      rcases List.mem_append.1 hx with hx | hx
      · simp [hbare x hx]
      · simp [h2 x hx]
    have hstop : (isBareChar d || isSpaces d) = false := by simp [hsd, hbd]
    have t1 := takeWhile_append_stop (p := fun c => isBareChar c || isSpaces c) hall hstop tail
    have t2 := dropWhile_append_stop (p := fun c => isBareChar c || isSpaces c) hall hstop tail
    have u1 := takeWhile_append_stop (p := isSpaces) h1 q7 (s' ++ (b2 ++ d :: tail))
    have u2 := dropWhile_append_stop (p := isSpaces) h1 q7 (s' ++ (b2 ++ d :: tail))
    refine ⟨b1 ++ ((c :: s') ++ b2), ?_⟩
    have e0 : b1 ++ (c :: s' ++ (b2 ++ d :: tail)) = b1 ++ c :: (s' ++ (b2 ++ d :: tail)) := by simp
    have e1 : (c :: (s' ++ (b2 ++ d :: tail))) = (c :: s') ++ b2 ++ d :: tail := by simp
    have hst := strip_surrounded hbare hne h1 h2
    rw [e0]
    generalize b1 ++ c :: (s' ++ (b2 ++ d :: tail)) = X at *
    conv => lhs; unfold parseKey
    rw [mark_bind, skip_bind, getSt_bind, u1, u2]
    rw [← afterPart_eq]
    simp only [List.nil_append, St.cur_cons, q8, q9, decide_false, Bool.or_self, Bool.false_eq_true, if_false]
    rw [e1, skip_bind, t1, t2, extract_bind]
    simp only [hst, List.isEmpty_cons, Bool.false_eq_true, if_false, h32]

theorem dotted_length {H : Str} {q : List Str} (h : DottedText H q) : q.length ≤ H.length := by
  induction h with
  | one b1 s k b2 _ hk =>
    cases hk with
    | bare _ hne => have := List.length_pos_iff.2 hne; simp; omega
    | basic => simp; omega
    | literal => simp; omega
  | more b1 s k b2 r ks _ hk _ _ ih => simp; omega

theorem parseKey_dottedText {H : Str} {q : List Str} (h : DottedText H q) {d : Chr} (hd : d = 93 ∨ d = 61) : ∀ (n : Nat), q.length ≤ n →
    ∃ K, KeyPath K q ∧ K.sep = [] ∧ ∀ (tail e : Str) (a : List Key) (l : List Loss), ∃ e', parseKey n ⟨H ++ d :: tail, e, a, l⟩ = .ok K ⟨d :: tail, e', a, l⟩ := by
  have hd46 : d ≠ 46 := by omega
  induction h with
  | one b1 s k b2 h1 hk h2 =>
    intro n hn
    obtain ⟨n, rfl⟩ : ∃ m, n = m + 1 := ⟨n - 1, by simp at hn; omega⟩
    obtain ⟨sk, g1, g2, g3, _, g4, g5⟩ := parseKey_text hk (blanks_spaces h1) (blanks_spaces h2) (d := d) (.inr (hd.elim .inl fun h => .inr (.inl h)))
    refine ⟨.single sk, ⟨by simp [Key.parts, g1], ?_, ?_, ?_⟩, g3, fun tail e a l => ?_⟩
    · intro p hp; simp only [Key.parts, List.mem_singleton] at hp; subst hp; exact g2
    · intro p hp; simp only [Key.parts, List.mem_singleton] at hp; subst hp; exact g4
    · exact ⟨fun _ => rfl, fun _ => ⟨_, rfl⟩⟩
    · obtain ⟨e', h⟩ := g5 n tail e a l
      refine ⟨e', ?_⟩
      unfold afterPart at h
      rw [if_neg hd46] at h
      rw [← h]
      simp
  | more b1 s k b2 r ks h1 hk h2 h ih =>
    intro n hn
    obtain ⟨n, rfl⟩ : ∃ m, n = m + 1 := ⟨n - 1, by simp at hn; omega⟩
    obtain ⟨sk, g1, g2, g3, _, g4, g5⟩ := parseKey_text hk (blanks_spaces h1) (blanks_spaces h2) (d := 46) (.inl rfl)
    obtain ⟨K, hK, hs, hp⟩ := ih n (by simp at hn; omega)
    have hne : K.parts ≠ [] := by
      cases K with
      | single => simp [Key.parts]
      | dotted ks' sp o =>
        intro h0
        have h1 := hK.keys
        rw [h0] at h1
        cases h with
        | one => cases h1
        | more => cases h1
    refine ⟨(Key.single sk).concat K, ⟨by simp only [Key.concat, Key.parts, List.map_append, List.map_cons, List.map_nil, g1]; rw [← hK.keys]; rfl, ?_, ?_, ?_⟩, ?_, fun tail e a l => ?_⟩
    · intro p hp
      simp only [Key.concat, Key.parts, List.cons_append, List.nil_append, List.mem_cons] at hp
      rcases hp with rfl | hp
      · exact g2
      · exact hK.plain p hp
    · intro p hp
      simp only [Key.concat, Key.parts, List.cons_append, List.nil_append, List.mem_cons] at hp
      rcases hp with rfl | hp
      · exact g4
      · exact hK.nospace p hp
    · refine ⟨fun ⟨s, hs⟩ => (by cases hs), fun h0 => ?_⟩
      have := hK.keys
      cases h with
      | one => cases h0
      | more => cases h0
    · exact g3
    · obtain ⟨e1, q1⟩ := g5 n (r ++ d :: tail) e a l
      obtain ⟨e2, q2⟩ := hp tail (e1 ++ [46]) a l
      refine ⟨e2, ?_⟩
      unfold afterPart at q1
      rw [if_pos rfl, q2] at q1
      simpa using q1

theorem dotted_head {H : Str} {q : List Str} (h : DottedText H q) : ∃ c r, H = c :: r ∧ c ≠ 91 := by
  have key : ∀ b1 s k t : Str, Blanks b1 → KeyText s k → ∃ c r, b1 ++ (s ++ t) = c :: r ∧ c ≠ 91 := by
    intro b1 s k t h1 hk
    cases b1 with
    | cons c b => exact ⟨c, _, rfl, by rcases h1 c (by simp) with h | h <;> omega⟩
    | nil =>
      cases hk with
      | bare _ hne hb =>
        obtain ⟨c, s', rfl⟩ := List.exists_cons_of_ne_nil hne
        refine ⟨c, _, rfl, ?_⟩
        have := hb c (by simp)
        unfold BareChar at this
        omega
      | basic => exact ⟨34, _, rfl, by omega⟩
      | literal => exact ⟨39, _, rfl, by omega⟩
  cases h with
  | one b1 s k b2 h1 hk h2 => exact key b1 s k b2 h1 hk
  | more b1 s k b2 r ks h1 hk h2 h => exact key b1 s k _ h1 hk

/-- a path between brackets -/
theorem headReads_text {H : Str} {q : List Str} (h : DottedText H q) : HeadReads H q := by
  refine ⟨dotted_head h, fun r e a l => ?_⟩
  have hl := dotted_length h
  obtain ⟨K, hK, _, hp⟩ := parseKey_dottedText h (d := 93) (.inl rfl) ((H ++ 93 :: r).length + 1) (by simp; omega)
  obtain ⟨e', hp⟩ := hp r e a l
  refine ⟨K, e', ?_, hK⟩
  unfold headerKey parseKeyHere
  rw [getSt_bind, hp]

end Tomlkit
