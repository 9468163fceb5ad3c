import Verif.Proofs.TomlValues
import Verif.Proofs.QuietValues
/-!
# Headers of ordinary texts
-/
namespace Tomlkit
open _root_.Spec Tomlkit.Spec

/-- spelling and name of the parts of a key -/
def pairs (K : Key) : List (Str × Str) := K.parts.map fun k => (k.orig, k.key)

/-- a key read from a header -/
structure HeadKey (K : Key) (P : List (Str × Str)) : Prop where
  pairs : pairs K = P
  plain : ∀ p ∈ K.parts, p.dotted = false
  text : K.asString = joinDot (P.map Prod.fst)
  one : ∀ p, K.parts = [p] → K = .single p
  ne : P ≠ []

theorem HeadKey.length {K : Key} {P : List (Str × Str)} (h : HeadKey K P) : K.parts.length = P.length := by
  rw [← h.pairs]; simp [Tomlkit.pairs]

theorem HeadKey.names {K : Key} {P : List (Str × Str)} (h : HeadKey K P) : K.parts.map SKey.key = names P := by
  rw [← h.pairs]; simp [Tomlkit.names, Tomlkit.pairs]

theorem HeadKey.origs {K : Key} {P : List (Str × Str)} (h : HeadKey K P) : K.parts.map SKey.orig = P.map Prod.fst := by
  rw [← h.pairs]; simp [Tomlkit.pairs]

theorem HeadKey.setSep {K : Key} {P : List (Str × Str)} (h : HeadKey K P) (s : Str) : HeadKey (K.setSep s) P := by
  obtain ⟨h1, h2, h3, h4, h5⟩ := h
  cases K with
  | single k =>
    refine ⟨h1, ?_, h3, ?_, h5⟩
    · intro p hp
      simp only [Key.setSep, Key.parts, List.mem_singleton] at hp
      subst hp
      exact h2 k (by simp [Key.parts])
    · rintro p hp
      simp only [Key.setSep, Key.parts, List.cons.injEq, and_true] at hp
      subst hp; rfl
  | dotted ks sp o =>
    refine ⟨h1, h2, h3, ?_, h5⟩
    intro p hp
    cases h4 p hp

theorem path_length {H : Str} {P : List (Str × Str)} (h : PathText H P) : P.length ≤ H.length := by
  induction h with
  | one b1 s k b2 _ hk =>
    cases hk with
    | bare _ hne => have := List.length_pos_iff.2 hne; simp; omega
    | basic => simp; omega
    | literal => simp; omega
  | more b1 s k b2 r ks _ hk _ _ ih => simp; omega

theorem path_key {H : Str} {P : List (Str × Str)} (h : PathText H P) : ∀ (n : Nat), P.length ≤ n →
    ∃ K, HeadKey K P ∧ (∀ p ∈ K.parts, p.t = .bare → (strip p.key).contains 32 = false) ∧
      ∀ (tail e : Str) (a : List Key) (l : List Loss), ∃ e', parseKey n ⟨H ++ 93 :: tail, e, a, l⟩ = .ok K ⟨93 :: tail, e', a, l⟩ := by
  induction h with
  | one b1 s k b2 h1 hk h2 =>
    intro n hn
    obtain ⟨n, rfl⟩ : ∃ m, n = m + 1 := ⟨n - 1, by simp at hn; omega⟩
    obtain ⟨sk, g1, g2, g3, g0, g4, g5⟩ := parseKey_text hk (blanks_spaces h1) (blanks_spaces h2) (d := 93) (.inr (.inl rfl))
    refine ⟨.single sk, ⟨by simp [pairs, Key.parts, g1, g0], ?_, by simp [Key.asString, g0, joinDot], ?_, by simp⟩, ?_, fun tail e a l => ?_⟩
    · intro p hp; simp only [Key.parts, List.mem_singleton] at hp; subst hp; exact g2
    · intro p hp; simp only [Key.parts, List.cons.injEq, and_true] at hp; subst hp; rfl
    · intro p hp; simp only [Key.parts, List.mem_singleton] at hp; subst hp; exact g4
    · obtain ⟨e', h⟩ := g5 n tail e a l
      refine ⟨e', ?_⟩
      unfold afterPart at h
      rw [if_neg (by decide)] at h
      rw [← h]
      simp
  | more b1 s k b2 r ks h1 hk h2 h ih =>
    intro n hn
    obtain ⟨n, rfl⟩ : ∃ m, n = m + 1 := ⟨n - 1, by simp at hn; omega⟩
    obtain ⟨sk, g1, g2, g3, g0, g4, g5⟩ := parseKey_text hk (blanks_spaces h1) (blanks_spaces h2) (d := 46) (.inl rfl)
    obtain ⟨K, hK, hsp, hp⟩ := ih n (by simp at hn; omega)
    refine ⟨(Key.single sk).concat K, ⟨?_, ?_, ?_, ?_, by simp⟩, ?_, fun tail e a l => ?_⟩
    · rw [← hK.pairs]; simp [pairs, Key.concat, Key.parts, g1, g0]
    · intro p hp
      simp only [Key.concat, Key.parts, List.cons_append, List.nil_append, List.mem_cons] at hp
      rcases hp with rfl | hp
      · exact g2
      · exact hK.plain p hp
    · show joinDot ((sk :: K.parts).map SKey.orig) = _
      rw [List.map_cons, hK.origs, g0]; rfl
    · intro p hp
      exfalso
      have := congrArg List.length hp
      have h2 := hK.length
      have h3 := List.length_pos_iff.2 hK.ne
      simp [Key.concat, Key.parts] at this
      have : K.parts.length = 0 := by cases K <;> simp_all [Key.parts]
      omega
    · intro p hp
      simp only [Key.concat, Key.parts, List.cons_append, List.nil_append, List.mem_cons] at hp
      rcases hp with rfl | hp
      · exact g4
      · exact hsp p hp
    · obtain ⟨e1, q1⟩ := g5 n (r ++ 93 :: tail) e a l
      obtain ⟨e2, q2⟩ := hp tail (e1 ++ [46]) a l
      refine ⟨e2, ?_⟩
      unfold afterPart at q1
      rw [if_pos rfl, q2] at q1
      simpa using q1

theorem path_head {H : Str} {P : List (Str × Str)} (h : PathText H P) : ∃ c r, H = c :: r ∧ c ≠ 91 := by
  have key : ∀ b1 s k t : Str, Blanks b1 → KeyText s k → ∃ c r, b1 ++ (s ++ t) = c :: r ∧ c ≠ 91 := by
    intro b1 s k t h1 hk
    cases b1 with
    | cons c b => exact ⟨c, _, rfl, by rcases h1 c (by simp) with h | h <;> omega⟩
    | nil =>
      cases hk with
      | bare _ hne hb =>
        obtain ⟨c, s', rfl⟩ := List.exists_cons_of_ne_nil hne
        refine ⟨c, _, rfl, ?_⟩
        have := hb c (by simp)
        unfold BareChar at this
        omega
      | basic => exact ⟨34, _, rfl, by omega⟩
      | literal => exact ⟨39, _, rfl, by omega⟩
  cases h with
  | one b1 s k b2 h1 hk h2 => exact key b1 s k b2 h1 hk
  | more b1 s k b2 r ks h1 hk h2 h =>
    obtain ⟨c, t, hc, hne⟩ := key b1 s k b2 h1 hk
    exact ⟨c, t ++ 46 :: r, by rw [hc]; rfl, hne⟩

/-- the key of a header -/
theorem headerKey_path {H : Str} {P : List (Str × Str)} (h : PathText H P) (r e : Str) (a : List Key) (l : List Loss) :
    ∃ K e', headerKey ⟨H ++ 93 :: r, e, a, l⟩ = .ok K ⟨93 :: r, e', a, l⟩ ∧ HeadKey K P := by
  have hl := path_length h
  obtain ⟨K, hK, _, hp⟩ := path_key h ((H ++ 93 :: r).length + 1) (by simp; omega)
  obtain ⟨e', hp⟩ := hp r e a l
  refine ⟨K, e', ?_, hK⟩
  unfold headerKey parseKeyHere
  rw [getSt_bind, hp]

/-- where no name stands, no header is read -/
theorem headerKey_none {w : Str} (h : NoName w) (e : Str) (a : List Key) (l : List Loss) :
    headerKey.wp (fun _ s => s.cur = 44) (fun _ _ => True) ⟨w, e, a, l⟩ := by
  unfold P.wp headerKey parseKeyHere
  rw [getSt_bind]
  rcases h with ⟨b, c, r, hb, rfl, hc⟩ | ⟨b, s, k, b', r, hb, hk, hb', rfl⟩
  · have hcs : isSpaces c = false ∧ isBareChar c = false ∧ c ≠ 34 ∧ c ≠ 39 := by
      simp only [List.mem_cons, List.not_mem_nil, or_false] at hc
      rcases hc with rfl | rfl | rfl | rfl | rfl | rfl | rfl <;> exact ⟨rfl, rfl, by decide, by decide⟩
    have u1 := takeWhile_append_stop (p := isSpaces) (blanks_spaces hb) hcs.1 r
    have u2 := dropWhile_append_stop (p := isSpaces) (blanks_spaces hb) hcs.1 r
    rw [parseKey, mark_bind, skip_bind, getSt_bind, u1, u2]
    have hq : ¬ ((decide ((⟨c :: r, [] ++ b, a, l⟩ : St).cur = 34) || decide ((⟨c :: r, [] ++ b, a, l⟩ : St).cur = 39)) = true) := by
      simp [St.cur, hcs.2.2.1, hcs.2.2.2]
    rw [if_neg hq, skip_bind]
    have hx : (isBareChar c || isSpaces c) = false := by rw [hcs.1, hcs.2.1]; rfl
    have t1 : (c :: r).takeWhile (fun c => isBareChar c || isSpaces c) = [] := by rw [List.takeWhile_cons, hx]; rfl
    have t2 : (c :: r).dropWhile (fun c => isBareChar c || isSpaces c) = c :: r := by rw [List.dropWhile_cons, hx]; rfl
    rw [t1, t2, extract_bind]
    have hst : strip (b ++ []) = [] := by
      rw [List.append_nil]
      have hd : b.dropWhile isUniSpace = [] := by
        have : ∀ x ∈ b, isUniSpace x = true := by
          intro x hx
          rcases hb x hx with rfl | rfl <;> rfl
        have := List.dropWhile_append_of_pos (l₂ := []) this
        simpa using this
      unfold strip
      rw [hd]; rfl
    have hemp : (strip (b ++ [])).isEmpty = true := by rw [hst]; rfl
    rw [if_pos (show (strip ([] ++ b ++ [])).isEmpty = true from hemp)]
    exact trivial
  · obtain ⟨sk, g1, g2, g3, g0, g4, g5⟩ := parseKey_text hk (blanks_spaces hb) (blanks_spaces hb') (d := 44) (.inr (.inr (.inr rfl)))
    obtain ⟨e', h⟩ := g5 (b ++ (s ++ (b' ++ 44 :: r))).length r e a l
    unfold afterPart at h
    rw [if_neg (by decide)] at h
    rw [h]
    rfl

end Tomlkit
