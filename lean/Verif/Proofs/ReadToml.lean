import Verif.Proofs.TomlStrings
import Verif.Proofs.TomlNumbers
import Verif.Proofs.TomlDates
import Verif.Proofs.ReadInline
/-!
# The values of TOML are read as what they denote
-/
namespace Tomlkit
open _root_.Spec Tomlkit.Spec

/-! ## Keys -/

theorem blanks_spaces {b : Str} (h : Blanks b) : Spaces b := fun c hc => by rcases h c hc with rfl | rfl <;> rfl

theorem spaces_no_quote {b : Str} (hb : Spaces b) (tail : Str) {x : Chr} (hx : x = 34 ∨ x = 39) : (b ++ 61 :: tail).head? ≠ some x := by
  rcases b with _ | ⟨c, r⟩
  · simp; omega
  · have := hb c (List.mem_cons_self ..)
    intro h
    simp only [List.cons_append, List.head?_cons, Option.some.injEq] at h
    subst h
    rcases hx with rfl | rfl <;> cases this

/-- a key in quotes -/
theorem keyReads_quoted {x : Chr} (hx : x = 34 ∨ x = 39) {d : StrType} {kt : KeyType} {o k b : Str} (hb : Spaces b)
    (hd : d = .slb ∧ x = 34 ∧ kt = .basic ∨ d = .sll ∧ x = 39 ∧ kt = .literal)
    (h : ∀ tail a l, tail.head? ≠ some x → ∃ e', parseString d ⟨x :: (o ++ x :: tail), [], a, l⟩ = .ok (.str d k o {}) ⟨tail, e', a, l⟩) :
    KeyReads (x :: (o ++ [x]) ++ b) k := by
  refine ⟨⟨x, o ++ [x] ++ b, by simp, by rcases hx with rfl | rfl <;> rfl, by omega, by omega, by omega, by omega, by omega⟩, fun n tail e a l => ?_⟩
  obtain ⟨e1, h1⟩ := h (b ++ 61 :: tail) a l (spaces_no_quote hb tail hx)
  have hs61 : isSpaces 61 = false := rfl
  have t1 := takeWhile_append_stop (p := isSpaces) hb hs61 tail
  have t2 := dropWhile_append_stop (p := isSpaces) hb hs61 tail
  refine ⟨SKey.mk k kt [] ([] ++ ([x] ++ o ++ [x]) ++ b) false, b, rfl, by simp, rfl, rfl, ?_⟩
  have e0 : x :: (o ++ [x]) ++ b ++ 61 :: tail = x :: (o ++ x :: (b ++ 61 :: tail)) := by simp
  rw [e0]
  conv => lhs; unfold parseKey
  rcases hd with ⟨rfl, rfl, rfl⟩ | ⟨rfl, rfl, rfl⟩
  · have h34 : isSpaces 34 = false := rfl
    simp [h34, P.bind_def, h1, StrType.isMultiline, StrType.value, t1, t2]
  · have h39 : isSpaces 39 = false := rfl
    simp [h39, P.bind_def, h1, StrType.isMultiline, StrType.value, t1, t2]

theorem bareChar_code {c : Nat} (h : BareChar c) : isBareChar c = true := by
  unfold BareChar at h
  simp only [isBareChar, isAsciiLetter, isDigit, Bool.or_eq_true, Bool.and_eq_true, decide_eq_true_eq, beq_iff_eq]
  omega

theorem keyReads_bare {k b : Str} (hne : k ≠ []) (hbare : ∀ c ∈ k, isBareChar c = true) (hb : Spaces b) : KeyReads (k ++ b) k := by
  obtain ⟨c, k', rfl⟩ : ∃ c k', k = c :: k' := List.exists_cons_of_ne_nil hne
  obtain ⟨q1, q2, q3, q4, q5, q6, q7, q8, q9, _⟩ := bare_head (hbare c (by simp))
  refine ⟨⟨c, k' ++ b, rfl, q1, q2, q3, q4, q5, q6⟩, fun n tail e a l => ?_⟩
  have hstop : (isBareChar 61 || isSpaces 61) = false := rfl
  have hall : ∀ x ∈ (c :: k') ++ b, (isBareChar x || isSpaces x) = true := fun x hx => by
    rcases List.mem_append.1 hx with hx | hx
    · simp [hbare x hx]
    · simp [hb x hx]
  have t1 := takeWhile_append_stop (p := fun c => isBareChar c || isSpaces c) hall hstop tail
  have t2 := dropWhile_append_stop (p := fun c => isBareChar c || isSpaces c) hall hstop tail
  refine ⟨{ key := c :: k', t := .bare, sep := [], orig := (c :: k') ++ b }, (c :: k') ++ b, rfl, rfl, rfl, rfl, ?_⟩
  have h32 : (c :: k').contains 32 = false := by
    cases hh : (c :: k').contains 32
    · rfl
    · have := hbare 32 (by simpa using hh)
      simp [isBareChar, isAsciiLetter, isDigit] at this
  have s1 : ((c :: k') ++ b ++ 61 :: tail).takeWhile isSpaces = [] := by simp [q7]
  have s2 : ((c :: k') ++ b ++ 61 :: tail).dropWhile isSpaces = (c :: k') ++ b ++ 61 :: tail := by simp [q7]
  have s3 : ∀ e, (St.mk ((c :: k') ++ b ++ 61 :: tail) e a l).cur = c := fun _ => rfl
  have s4 := strip_bare_spaces hbare hne hb
  generalize (c :: k') ++ b ++ 61 :: tail = X at *
  conv => lhs; unfold parseKey
  simp only [mark_bind, skip_bind, getSt_bind, s1, s2, s3, q8, q9, decide_false, Bool.or_self,
    Bool.false_eq_true, if_false, extract_bind, t1, t2, List.append_nil, List.nil_append, s4, h32,
    List.isEmpty_cons, St.cur_cons]
  simp

/-- every key text, with blanks behind it -/
theorem keyReads_text {s k b : Str} (h : KeyText s k) (hb : Spaces b) : KeyReads (s ++ b) k := by
  cases h with
  | bare _ hne h => exact keyReads_bare hne (fun c hc => bareChar_code (h c hc)) hb
  | basic o v h =>
    exact keyReads_quoted (.inl rfl) hb (.inl ⟨rfl, rfl, rfl⟩) fun tail a l ht => parseString_body (basicBody_code h) tail [] a l ht
  | literal s h =>
    exact keyReads_quoted (.inr rfl) hb (.inr ⟨rfl, rfl, rfl⟩) fun tail a l ht => parseString_sll _ tail [] a l (plainLiteral_ok h) ht

/-! ## Arrays and inline tables -/

theorem blank_split (s : Str) : Blank (s.takeWhile (· == 32)) := by
  intro c hc
  induction s with
  | nil => cases hc
  | cons d s ih =>
    rw [List.takeWhile_cons] at hc
    split at hc
    · rename_i hd
      rcases List.mem_cons.1 hc with rfl | hc
      · simpa using hd
      · exact ih hc
    · cases hc

/-- after an element: blanks, then something that ends a value -/
theorem ArrText.split {t : Str} {l : List PyVal} (h : ArrText False true t l) :
    ∃ b t', t = b ++ t' ∧ Blank b ∧ DateEnds t' := by
  refine ⟨t.takeWhile (· == 32), t.dropWhile (· == 32), (List.takeWhile_append_dropWhile).symm, blank_split t, ?_⟩
  have h2 : ArrText False true (t.dropWhile (· == 32)) l := by
    have h0 := h
    rw [← List.takeWhile_append_dropWhile (p := (· == 32)) (l := t)] at h0
    exact h0.dropBlank (blank_split t)
  have hns : ∀ c r, t.dropWhile (· == 32) = c :: r → c ≠ 32 := by
    intro c r h0
    have := List.head?_dropWhile_not (· == 32) t
    rw [h0] at this
    simpa using this
  generalize t.dropWhile (· == 32) = x at h2 hns
  cases h2 with
  | close => exact .inr ⟨93, [], rfl, rfl⟩
  | @ws _ c t l hc h =>
    refine .inr ⟨c, _, rfl, ?_⟩
    have := hns c _ rfl
    simp only [isWs, isSpaces, isNl, Bool.or_eq_true, beq_iff_eq] at hc
    have : c = 9 ∨ c = 10 ∨ c = 13 := by omega
    rcases this with rfl | rfl | rfl <;> rfl
  | cmt => exact .inr ⟨35, _, rfl, rfl⟩
  | comma => exact .inr ⟨44, _, rfl, rfl⟩

theorem arr_newline {p : Bool} {nl s : Str} {l : List PyVal} (hn : Newline nl) (h : ArrText False p s l) : ArrText False p (nl ++ s) l := by
  rcases hn with rfl | rfl
  · exact .ws p rfl h
  · exact .ws p rfl (.ws p rfl h)

theorem notControl_comment {c : Nat} (h : NotControl c) : isCommentChar c = true := by
  have h1 : ¬ (Control c ∧ c ≠ 9) := h
  simp only [Control] at h1
  simp [isCommentChar, isNl, isCtrl]
  omega

theorem blanks_lead {b : Str} (hb : Blanks b) {y : Chr} (hy : isDateEnd y = true) (t : Str) :
    ∃ b' t', b ++ y :: t = b' ++ t' ∧ Blank b' ∧ DateEnds t' := by
  induction b with
  | nil => exact ⟨[], y :: t, rfl, Blank.nil, .inr ⟨y, t, rfl, hy⟩⟩
  | cons c b ih =>
    have hc := hb c (by simp)
    rcases hc with rfl | rfl
    · obtain ⟨b', t', h1, h2, h3⟩ := ih fun x hx => hb x (by simp [hx])
      refine ⟨32 :: b', t', by rw [List.cons_append, h1]; rfl, fun x hx => ?_, h3⟩
      rcases List.mem_cons.1 hx with h | h
      · exact h
      · exact h2 x h
    · exact ⟨[], _, rfl, Blank.nil, .inr ⟨9, _, rfl, rfl⟩⟩

end Tomlkit
