import Verif.Proofs.Basic
import Verif.Proofs.Escape
/-! The string parser on escaped text. -/
namespace Tomlkit

/-- characters that a single-line basic string escapes -/
def slbEsc (c : Chr) : Bool := isCtrl c || c == 92 || c == 34
/-- characters that a multi-line basic string escapes -/
def mlbEsc (c : Chr) : Bool := (isCtrl c && c != 10 && c != 13) || c == 92

theorem mem_ctrlSeqs (c : Chr) : [c] ∈ ctrlSeqs ↔ isCtrl c = true := by
  simp [ctrlSeqs, isCtrl]
  omega

theorem contains_eq_of_iff {l : List Str} {q : Str} {b : Bool} (h : q ∈ l ↔ b = true) : l.contains q = b := by
  cases b
  · simpa using h
  · simpa using h

theorem slb_contains (c : Chr) : StrType.slb.escapedSequences.contains [c] = slbEsc c := by
  apply contains_eq_of_iff
  simp [StrType.escapedSequences, mem_ctrlSeqs, slbEsc, or_assoc]

theorem basic_contains (c : Chr) : basicEscapes.contains [c] = slbEsc c := by
  apply contains_eq_of_iff
  simp [basicEscapes, mem_ctrlSeqs, slbEsc, or_assoc]
  constructor <;> (rintro (h | h | h) <;> simp [h])

theorem mlb_contains (c : Chr) : StrType.mlb.escapedSequences.contains [c] = mlbEsc c := by
  apply contains_eq_of_iff
  simp only [StrType.escapedSequences, List.mem_filter, List.mem_append, mem_ctrlSeqs, mlbEsc]
  simp
  constructor
  · rintro ⟨h | h, h1, h2⟩
    · simp [h, h1, h2]
    · simp [h]
  · rintro (⟨⟨h, h1⟩, h2⟩ | h)
    · simp [h, h1, h2]
    · simp [h]

theorem slb_nodup : StrType.slb.escapedSequences.Nodup := by decide +kernel
theorem basic_nodup : basicEscapes.Nodup := by decide +kernel
theorem mlb_nodup : StrType.mlb.escapedSequences.Nodup := by decide +kernel

theorem escapeString_slb (s : Str) : escapeString s StrType.slb.escapedSequences = escEach slbEsc s := by
  rw [escapeString_each s _ slb_nodup (by decide +kernel)]
  simp only [slb_contains]

theorem escapeString_basic (s : Str) : escapeString s basicEscapes = escEach slbEsc s := by
  rw [escapeString_each s _ basic_nodup (by decide +kernel)]
  simp only [basic_contains]

theorem escapeString_mlb (s : Str) : escapeString s StrType.mlb.escapedSequences = escTriple mlbEsc s := by
  rw [escapeString_triple s _ mlb_nodup (by decide +kernel) (by decide +kernel) (by decide +kernel)]
  simp only [mlb_contains]

theorem slbEsc_lt {c : Chr} (h : slbEsc c = true) : c < 128 := by
  simp [slbEsc, isCtrl] at h
  omega
theorem mlbEsc_lt {c : Chr} (h : mlbEsc c = true) : c < 128 := by
  simp [mlbEsc, isCtrl] at h
  omega

/-- the shape of an escape: one letter, or `u` and four hexadecimal digits -/
def escShape (c : Chr) : Bool :=
  match escOf [c] with
  | [92, x] => escapedChar x == some c && !isWs x
  | [92, x, a, b, d, e] =>
    x == 117 && (peekUnicode 4 [a, b, d, e, 0] == some c)
  | _ => false

theorem escShape_all : ∀ c < 128, (slbEsc c || mlbEsc c) = true → escShape c = true := by decide +kernel

theorem peekUnicode_tail (a b d e y : Chr) (r : Str) :
    peekUnicode 4 (a :: b :: d :: e :: y :: r) = peekUnicode 4 [a, b, d, e, 0] := by
  simp [peekUnicode]

theorem esc_cases {c : Chr} (h : (slbEsc c || mlbEsc c) = true) :
    (∃ x, escOf [c] = [92, x] ∧ escapedChar x = some c ∧ isWs x = false) ∨
    (∃ a b d e, escOf [c] = [92, 117, a, b, d, e] ∧ ∀ y r, peekUnicode 4 (a :: b :: d :: e :: y :: r) = some c) := by
  have hlt : c < 128 := by
    rw [Bool.or_eq_true] at h
    exact h.elim slbEsc_lt mlbEsc_lt
  have hs := escShape_all c hlt h
  unfold escShape at hs
  split at hs
  · next x heq =>
    left
    exact ⟨x, heq, by simpa using hs⟩
  · next x a b d e heq =>
    right
    simp at hs
    refine ⟨a, b, d, e, by rw [heq, hs.1], fun y r => ?_⟩
    rw [peekUnicode_tail, hs.2]
  · simp at hs

variable {delim : StrType}

theorem unit_ne_92 : delim.unit ≠ 92 := by cases delim <;> decide
theorem refused_92 : refusedInString delim 92 = false := by cases delim <;> decide

/-- an ordinary character -/
theorem strLoop_char (n value c y r e a l) (h1 : refusedInString delim c = false) (h2 : c ≠ delim.unit)
    (h3 : delim.isBasic = true → c ≠ 92) :
    strLoop delim (n + 1) value false ⟨c :: y :: r, e, a, l⟩ =
      strLoop delim n (value ++ [c]) false ⟨y :: r, e ++ [c], a, l⟩ := by
  rw [strLoop]
  have h4 : ¬ (delim.isBasic = true ∧ c = 92) := fun h => h3 h.1 h.2
  simp [h1, h2, h4]

/-- an escape -/
theorem strLoop_esc (n value c y r e a l) (hb : delim.isBasic = true) (h : (slbEsc c || mlbEsc c) = true) :
    strLoop delim (n + 2) value false ⟨escOf [c] ++ y :: r, e, a, l⟩ =
      strLoop delim n (value ++ [c]) false ⟨y :: r, e ++ escOf [c], a, l⟩ := by
  rcases esc_cases h with ⟨x, hx, hc, hw⟩ | ⟨p, q, u, v, hx, hc⟩
  · rw [hx]
    rw [strLoop]
    simp [refused_92, unit_ne_92.symm, hb]
    rw [strLoop]
    simp [hb, parseEscapedChar, hw, hc, P.bind_def]
  · rw [hx]
    rw [strLoop]
    simp [refused_92, unit_ne_92.symm, hb]
    rw [strLoop]
    simp [hb, parseEscapedChar, hc, P.bind_def, isWs, isSpaces, isNl, escapedChar]

/-! ## Single-line basic strings -/

theorem escEach_nil (E) : escEach E [] = [] := rfl
theorem escEach_cons (E c s) : escEach E (c :: s) = (if E c then escOf [c] else [c]) ++ escEach E s := rfl

theorem escOf_len {c : Chr} (h : (slbEsc c || mlbEsc c) = true) : 2 ≤ (escOf [c]).length := by
  rcases esc_cases h with ⟨x, hx, _⟩ | ⟨p, q, u, v, hx, _⟩ <;> simp [hx]

/-- a non-empty text in front of a non-empty text, as a `cons` -/
theorem exists_cons_append (x : Str) (u : Chr) (tail : Str) : ∃ y r, x ++ u :: tail = y :: r := by
  cases x with
  | nil => exact ⟨u, tail, rfl⟩
  | cons y r => exact ⟨y, r ++ u :: tail, rfl⟩

theorem strLoop_slb (s : Str) : ∀ (n : Nat) (value tail e : Str) (a : List Key) (l : List Loss),
    (escEach slbEsc s).length < n →
    strLoop .slb n value false ⟨escEach slbEsc s ++ 34 :: tail, e, a, l⟩ =
      .ok (.str .slb (value ++ s) (e ++ escEach slbEsc s) {}) ⟨tail, e ++ escEach slbEsc s ++ [34], a, l⟩ := by
  induction s with
  | nil =>
    intro n value tail e a l hn
    obtain ⟨n, rfl⟩ : ∃ m, n = m + 1 := ⟨n - 1, by simp [escEach_nil] at hn; omega⟩
    rw [strLoop]
    simp [escEach_nil, refusedInString, isCtrl, StrType.unit, StrType.isMultiline]
  | cons c s ih =>
    intro n value tail e a l hn
    obtain ⟨y, r, hyr⟩ := exists_cons_append (escEach slbEsc s) 34 tail
    cases hE : slbEsc c with
    | true =>
      have hlen := escOf_len (c := c) (by simp [hE])
      simp only [escEach_cons, hE, if_true, List.length_append] at hn ⊢
      obtain ⟨n, rfl⟩ : ∃ m, n = m + 2 := ⟨n - 2, by omega⟩
      rw [List.append_assoc, hyr, strLoop_esc n value c y r e a l rfl (by simp [hE]), ← hyr,
        ih n _ tail _ a l (by omega)]
      simp
    | false =>
      simp only [escEach_cons, hE, List.length_append] at hn ⊢
      simp at hn
      obtain ⟨n, rfl⟩ : ∃ m, n = m + 1 := ⟨n - 1, by omega⟩
      simp [slbEsc] at hE
      simp only [Bool.false_eq_true, if_false, List.cons_append, List.nil_append, hyr]
      rw [strLoop_char (delim := .slb) n value c y r e a l (by simp [refusedInString, hE.1]) (by simp [StrType.unit, hE])
        (by simp [hE]), ← hyr, ih n _ tail _ a l (by omega)]
      simp

theorem escEach_slb_head (s : Str) (tail : Str) (h : s ≠ []) :
    ∃ y r, escEach slbEsc s ++ tail = y :: r ∧ y ≠ 34 := by
  cases s with
  | nil => exact absurd rfl h
  | cons c s =>
    rw [escEach_cons]
    cases hE : slbEsc c with
    | true =>
      rcases esc_cases (c := c) (by simp [hE]) with ⟨x, hx, _⟩ | ⟨p, q, u, v, hx, _⟩ <;> simp [hx]
    | false =>
      simp [slbEsc] at hE
      simp [hE]

/-- A quoted escaped string is read back, whatever follows it (except another quote). -/
theorem parseString_slb (s tail e : Str) (a : List Key) (l : List Loss) (ht : tail.head? ≠ some 34) :
    ∃ e', parseString .slb ⟨34 :: (escEach slbEsc s ++ 34 :: tail), e, a, l⟩ =
      .ok (.str .slb s (escEach slbEsc s) {}) ⟨tail, e', a, l⟩ := by
  unfold parseString
  by_cases hs : s = []
  · subst hs
    cases tail with
    | nil => exact ⟨_, by simp [escEach_nil, StrType.unit]; rfl⟩
    | cons t tail =>
      have : t ≠ 34 := by simpa using ht
      exact ⟨_, by simp [escEach_nil, StrType.unit, this]; rfl⟩
  · obtain ⟨y, r, hyr, hy⟩ := escEach_slb_head s (34 :: tail) hs
    refine ⟨escEach slbEsc s ++ [34], ?_⟩
    rw [hyr]
    simp [StrType.unit, hy, strBody, skipFirstNl, StrType.isMultiline]
    rw [show (y :: r) = escEach slbEsc s ++ 34 :: tail from hyr.symm]
    have hl : (escEach slbEsc s).length < r.length + 1 + 1 := by
      have := congrArg List.length hyr
      simp at this
      omega
    rw [strLoop_slb s _ _ _ _ _ _ hl]
    simp

/-! ## Literal strings -/

theorem strLoop_sll (s : Str) (h : ∀ c ∈ s, refusedInString .sll c = false ∧ c ≠ 39) :
    ∀ (n : Nat) (value tail e : Str) (a : List Key) (l : List Loss),
    s.length < n →
    strLoop .sll n value false ⟨s ++ 39 :: tail, e, a, l⟩ =
      .ok (.str .sll (value ++ s) (e ++ s) {}) ⟨tail, e ++ s ++ [39], a, l⟩ := by
  induction s with
  | nil =>
    intro n value tail e a l hn
    obtain ⟨n, rfl⟩ : ∃ m, n = m + 1 := ⟨n - 1, by simp at hn; omega⟩
    rw [strLoop]
    simp [refusedInString, isCtrl, StrType.unit, StrType.isMultiline]
  | cons c s ih =>
    intro n value tail e a l hn
    obtain ⟨y, r, hyr⟩ := exists_cons_append s 39 tail
    simp at hn
    obtain ⟨n, rfl⟩ : ∃ m, n = m + 1 := ⟨n - 1, by omega⟩
    have hc := h c (by simp)
    simp only [List.cons_append, hyr]
    rw [strLoop_char n value c y r e a l hc.1 (by simpa [StrType.unit] using hc.2)
      (by simp [StrType.isBasic]), ← hyr, ih (fun x hx => h x (by simp [hx])) n _ tail _ a l (by omega)]
    simp

theorem parseString_sll (s tail e : Str) (a : List Key) (l : List Loss)
    (h : ∀ c ∈ s, refusedInString .sll c = false ∧ c ≠ 39) (ht : tail.head? ≠ some 39) :
    ∃ e', parseString .sll ⟨39 :: (s ++ 39 :: tail), e, a, l⟩ =
      .ok (.str .sll s s {}) ⟨tail, e', a, l⟩ := by
  unfold parseString
  cases s with
  | nil =>
    cases tail with
    | nil => exact ⟨_, by simp [StrType.unit]; rfl⟩
    | cons t tail =>
      have : t ≠ 39 := by simpa using ht
      exact ⟨_, by simp [StrType.unit, this]; rfl⟩
  | cons c s =>
    have hc := (h c (by simp)).2
    refine ⟨c :: s ++ [39], ?_⟩
    simp [StrType.unit, hc, strBody, skipFirstNl, StrType.isMultiline]
    rw [← List.cons_append, strLoop_sll (c :: s) h _ _ _ _ _ _ (by simp; omega)]
    simp

/-! ## Multi-line strings: one lemma for both kinds

`MlText delim s o`: the text `o` between the delimiters stands for `s`. -/

/-- runs of quotes of a text: none of three or more -/
inductive MlText (delim : StrType) : Str → Str → Prop
  | nil : MlText delim [] []
  | char (c s o) : refusedInString delim c = false → c ≠ delim.unit → (delim.isBasic = true → c ≠ 92) →
      MlText delim s o → MlText delim (c :: s) (c :: o)
  | esc (c s o) : delim.isBasic = true → (slbEsc c || mlbEsc c) = true → MlText delim s o →
      MlText delim (c :: s) (escOf [c] ++ o)
  /-- one or two quotes that are followed by something else -/
  | quotes (k s o) : 1 ≤ k → k ≤ 2 → o.head? ≠ some delim.unit → MlText delim s o →
      MlText delim (List.replicate k delim.unit ++ s) (List.replicate k delim.unit ++ o)

theorem takeWhile_quotes (u : Chr) (k : Nat) (x : Str) (h : x.head? ≠ some u) :
    (List.replicate k u ++ x).takeWhile (· == u) = List.replicate k u := by
  induction k with
  | zero =>
    cases x with
    | nil => rfl
    | cons c x =>
      have : ¬ c = u := by simpa using h
      simp [this]
  | succ k ih => simp [List.replicate_succ, ih]

theorem dropWhile_quotes (u : Chr) (k : Nat) (x : Str) (h : x.head? ≠ some u) :
    (List.replicate k u ++ x).dropWhile (· == u) = x := by
  induction k with
  | zero =>
    cases x with
    | nil => rfl
    | cons c x =>
      have : ¬ c = u := by simpa using h
      simp [this]
  | succ k ih => simp [List.replicate_succ, ih]

theorem refused_unit : refusedInString delim delim.unit = false := by cases delim <;> decide

/-- the closing delimiter, after at most two quotes that belong to the text -/
theorem strLoop_close (hm : delim.isMultiline = true) (n value tail e a l) (k : Nat) (hk : k ≤ 2)
    (ht : tail.head? ≠ some delim.unit) :
    strLoop delim (n + 1) value false ⟨List.replicate (k + 3) delim.unit ++ tail, e, a, l⟩ =
      .ok (.str delim (value ++ List.replicate k delim.unit) (e ++ List.replicate k delim.unit) {})
        ⟨tail, e ++ List.replicate (k + 3) delim.unit, a, l⟩ := by
  rw [strLoop]
  have h1 := takeWhile_quotes delim.unit (k + 3) tail ht
  have h2 := dropWhile_quotes delim.unit (k + 3) tail ht
  have hc : (St.mk (List.replicate (k + 3) delim.unit ++ tail) e a l).cur = delim.unit := by
    simp [List.replicate_succ, St.cur]
  simp only [getSt_bind, hc, refused_unit, hm]
  simp only [Bool.not_false, Bool.and_false, Bool.false_eq_true, if_false, Bool.true_and, decide_true, if_true,
    extract_bind, skip_bind, h1, h2, List.length_replicate]
  have hlt : ¬ (k + 3 < 3) := by omega
  simp only [hlt, if_false]
  by_cases hk0 : k = 0
  · subst hk0; simp
  · have h3 : ¬ (k + 3 = 3) := by omega
    have h6 : ¬ (k + 3 ≥ 6) := by omega
    simp [hk0, h6]

theorem mlText_nil {s : Str} (h : MlText delim s []) : s = [] := by
  generalize ho : ([] : Str) = o at h
  cases h with
  | nil => rfl
  | char => simp at ho
  | esc c s o hb hc _ =>
    have := escOf_len hc
    have := congrArg List.length ho
    simp at this
    omega
  | quotes k s o hk1 hk2 hh hso =>
    have := congrArg List.length ho
    simp at this
    omega

theorem strLoop_ml (hm : delim.isMultiline = true) {s o : Str} (ho : MlText delim s o) :
    ∀ (n : Nat) (value tail e : Str) (a : List Key) (l : List Loss), o.length < n →
    tail.head? ≠ some delim.unit →
    strLoop delim n value false ⟨o ++ (List.replicate 3 delim.unit ++ tail), e, a, l⟩ =
      .ok (.str delim (value ++ s) (e ++ o) {}) ⟨tail, e ++ o ++ List.replicate 3 delim.unit, a, l⟩ := by
  induction ho with
  | nil =>
    intro n value tail e a l hn ht
    obtain ⟨n, rfl⟩ : ∃ m, n = m + 1 := ⟨n - 1, by simp at hn; omega⟩
    have := strLoop_close hm n value tail e a l 0 (by omega) ht
    simpa using this
  | char c s o h1 h2 h3 _ ih =>
    intro n value tail e a l hn ht
    simp at hn
    obtain ⟨n, rfl⟩ : ∃ m, n = m + 1 := ⟨n - 1, by omega⟩
    obtain ⟨y, r, hyr⟩ := exists_cons_append o delim.unit (List.replicate 2 delim.unit ++ tail)
    have hyr' : o ++ (List.replicate 3 delim.unit ++ tail) = y :: r := by
      rw [← hyr]; simp [List.replicate_succ]
    simp only [List.cons_append, hyr']
    rw [strLoop_char n value c y r e a l h1 h2 h3, ← hyr', ih n _ tail _ a l (by omega) ht]
    simp
  | esc c s o hb hc _ ih =>
    intro n value tail e a l hn ht
    have hlen := escOf_len hc
    simp only [List.length_append] at hn
    obtain ⟨n, rfl⟩ : ∃ m, n = m + 2 := ⟨n - 2, by omega⟩
    obtain ⟨y, r, hyr⟩ := exists_cons_append o delim.unit (List.replicate 2 delim.unit ++ tail)
    have hyr' : o ++ (List.replicate 3 delim.unit ++ tail) = y :: r := by
      rw [← hyr]; simp [List.replicate_succ]
    rw [List.append_assoc, hyr', strLoop_esc n value c y r e a l hb hc, ← hyr',
      ih n _ tail _ a l (by omega) ht]
    simp
  | quotes k s o hk1 hk2 hh hso ih =>
    intro n value tail e a l hn ht
    simp only [List.length_append, List.length_replicate] at hn
    obtain ⟨n, rfl⟩ : ∃ m, n = m + 1 := ⟨n - 1, by omega⟩
    cases o with
    | nil =>
      have hs := mlText_nil hso
      · subst hs
        have := strLoop_close hm n value tail e a l k hk2 ht
        rw [← List.replicate_append_replicate] at this
        simpa [List.append_assoc] using this
    | cons y o =>
      have hy : y ≠ delim.unit := by simpa using hh
      have hx : (y :: o ++ (List.replicate 3 delim.unit ++ tail)).head? ≠ some delim.unit := by simpa using hy
      have h1 := takeWhile_quotes delim.unit k _ hx
      have h2 := dropWhile_quotes delim.unit k _ hx
      rw [List.append_assoc]
      rw [strLoop]
      have hc : (St.mk (List.replicate k delim.unit ++ (y :: o ++ (List.replicate 3 delim.unit ++ tail))) e a l).cur
          = delim.unit := by
        obtain ⟨k, rfl⟩ : ∃ m, k = m + 1 := ⟨k - 1, by omega⟩
        simp [List.replicate_succ, St.cur]
      simp only [getSt_bind, hc, refused_unit, hm]
      simp only [Bool.not_false, Bool.and_false, Bool.false_eq_true, if_false, Bool.true_and, decide_true, if_true,
        extract_bind, skip_bind, h1, h2, List.length_replicate]
      have hlt : k < 3 := by omega
      simp only [hlt, if_true]
      rw [ih n _ tail _ a l (by omega) ht]
      simp

/-! ### texts of multi-line strings -/

theorem escTriple_cons (E : Chr → Bool) (c : Chr) (r : Str) (h : ¬ ∃ r', c :: r = 34 :: 34 :: 34 :: r') :
    escTriple E (c :: r) = (if E c then escOf [c] else [c]) ++ escTriple E r := by
  rw [escTriple]
  intro r' hc hr
  exact h ⟨r', by rw [hc, hr]⟩

theorem escTriple_head (r : Str) (h : r.head? ≠ some 34) : (escTriple mlbEsc r).head? ≠ some 34 := by
  cases r with
  | nil => simp [escTriple]
  | cons c r =>
    have hc : c ≠ 34 := by simpa using h
    rw [escTriple_cons _ _ _ (by rintro ⟨r', hr'⟩; exact hc (List.cons.inj hr').1)]
    cases hE : mlbEsc c with
    | true =>
      rcases esc_cases (c := c) (by simp [hE]) with ⟨x, hx, _⟩ | ⟨p, q, u, v, hx, _⟩ <;> simp [hx]
    | false => simp [hc]

theorem mlText_mlb (s : Str) : MlText .mlb s (escTriple mlbEsc s) := by
  match s with
  | [] => exact .nil
  | c :: r =>
    by_cases h3 : ∃ r', c :: r = 34 :: 34 :: 34 :: r'
    · obtain ⟨r', hr'⟩ := h3
      have hlen : r'.length < (c :: r).length := by rw [hr']; simp; omega
      have h := MlText.quotes (delim := .mlb) 2 _ _ (by omega) (by omega) (by simp [escOf, StrType.unit])
        (MlText.esc (delim := .mlb) 34 _ _ rfl (by decide) (mlText_mlb r'))
      rw [hr']
      simpa [List.replicate_succ, StrType.unit, escOf, escTriple] using h
    · rw [escTriple_cons _ _ _ h3]
      cases hE : mlbEsc c with
      | true => exact .esc (delim := .mlb) c r _ rfl (by simp [hE]) (mlText_mlb r)
      | false =>
        simp only [Bool.false_eq_true, if_false, List.singleton_append]
        by_cases hc : c = 34
        · subst hc
          by_cases hr : r.head? = some 34
          · obtain ⟨r', rfl⟩ : ∃ r', r = 34 :: r' := by
              cases r with
              | nil => simp at hr
              | cons d r => simp at hr; exact ⟨r, by rw [hr]⟩
            have hr' : r'.head? ≠ some 34 := by
              intro h
              cases r' with
              | nil => simp at h
              | cons d r' => simp at h; exact h3 ⟨r', by rw [h]⟩
            rw [escTriple_cons _ _ _ (by rintro ⟨r'', h⟩; simp at h; rw [h] at hr'; simp at hr')]
            have h := MlText.quotes (delim := .mlb) 2 _ _ (by omega) (by omega)
              (escTriple_head r' hr') (mlText_mlb r')
            simpa [List.replicate_succ, StrType.unit, mlbEsc, isCtrl] using h
          · have h := MlText.quotes (delim := .mlb) 1 _ _ (by omega) (by omega)
              (escTriple_head r hr) (mlText_mlb r)
            simpa [List.replicate_succ, StrType.unit] using h
        · simp only [mlbEsc, Bool.or_eq_false_iff] at hE
          refine .char (delim := .mlb) c r _ ?_ hc (fun _ => by simpa using hE.2) (mlText_mlb r)
          have := hE.1
          simp only [refusedInString, StrType.isMultiline]
          revert this
          cases isCtrl c <;> simp
          intro h1 _ h2
          exact h1 h2
termination_by s.length

/-- a literal multi-line text: no refused character, no three quotes in a row -/
theorem mlText_mll (s : Str) (h1 : ∀ c ∈ s, refusedInString .mll c = false) (h3 : isInfix [39, 39, 39] s = false) :
    MlText .mll s s := by
  match s with
  | [] => exact .nil
  | c :: r =>
    simp only [isInfix, Bool.or_eq_false_iff] at h3
    have h1' : ∀ c ∈ r, refusedInString .mll c = false := fun x hx => h1 x (by simp [hx])
    by_cases hc : c = 39
    · subst hc
      by_cases hr : r.head? = some 39
      · obtain ⟨r', rfl⟩ : ∃ r', r = 39 :: r' := by
          cases r with
          | nil => simp at hr
          | cons d r => simp at hr; exact ⟨r, by rw [hr]⟩
        have hr' : r'.head? ≠ some 39 := by
          intro h
          cases r' with
          | nil => simp at h
          | cons d r' => simp at h; simp [h, List.isPrefixOf] at h3
        have h3' := h3.2
        simp only [isInfix, Bool.or_eq_false_iff] at h3'
        have h := MlText.quotes (delim := .mll) 2 _ _ (by omega) (by omega) hr'
          (mlText_mll r' (fun x hx => h1' x (by simp [hx])) h3'.2)
        simpa [List.replicate_succ, StrType.unit] using h
      · have h := MlText.quotes (delim := .mll) 1 _ _ (by omega) (by omega) hr (mlText_mll r h1' h3.2)
        simpa [List.replicate_succ, StrType.unit] using h
    · exact .char (delim := .mll) c r _ (h1 c (by simp)) hc (by simp [StrType.isBasic]) (mlText_mll r h1' h3.2)
termination_by s.length

/-- what the parser drops at the start of a multi-line string -/
def dropFirstNl : Str → Str
  | 10 :: r => r
  | 13 :: 10 :: r => r
  | s => s

/-- the part of a text that is dropped -/
def firstNl : Str → Str
  | 10 :: _ => [10]
  | 13 :: 10 :: _ => [13, 10]
  | _ => []

theorem firstNl_append (s : Str) : firstNl s ++ dropFirstNl s = s := by
  unfold firstNl dropFirstNl
  split <;> simp

theorem firstNl_cases (o : Str) : (∃ r, o = 10 :: r) ∨ (∃ r, o = 13 :: 10 :: r) ∨
    (firstNl o = [] ∧ dropFirstNl o = o ∧ (∀ r, o ≠ 10 :: r) ∧ ∀ r, o ≠ 13 :: 10 :: r) := by
  by_cases h1 : ∃ r, o = 10 :: r
  · exact Or.inl h1
  · by_cases h2 : ∃ r, o = 13 :: 10 :: r
    · exact Or.inr (Or.inl h2)
    · refine Or.inr (Or.inr ⟨?_, ?_, fun r h => h1 ⟨r, h⟩, fun r h => h2 ⟨r, h⟩⟩)
      · unfold firstNl; split <;> simp_all
      · unfold dropFirstNl; split <;> simp_all

theorem skipFirstNl_ml (hm : delim.isMultiline = true) (o q e : Str) (a l) :
    skipFirstNl delim ⟨o ++ delim.unit :: q, e, a, l⟩ =
      .ok () ⟨dropFirstNl o ++ delim.unit :: q, e ++ firstNl o, a, l⟩ := by
  unfold skipFirstNl
  simp only [hm, if_true, getSt_bind]
  have hu : ¬ delim.unit = 10 ∧ ¬ delim.unit = 13 := by cases delim <;> decide
  rcases firstNl_cases o with ⟨r, rfl⟩ | ⟨r, rfl⟩ | ⟨h1, h2, h3, h4⟩
  · cases r with
    | nil => simp [firstNl, dropFirstNl]
    | cons c r => simp [firstNl, dropFirstNl]
  · cases r with
    | nil => simp [firstNl, dropFirstNl]
    | cons c r => simp [firstNl, dropFirstNl]
  · rw [h1, h2]
    cases o with
    | nil => simp [hu]
    | cons c o =>
      have hc : c ≠ 10 := fun h => h3 o (by rw [h])
      cases o with
      | nil => simp [hc, hu]
      | cons d o =>
        have hd : ¬ (c = 13 ∧ d = 10) := fun h => h4 o (by rw [h.1, h.2])
        by_cases hc13 : c = 13
        · subst hc13
          simp at hd
          simp [hd]
        · simp [hc, hc13]

/-- A multi-line string is read back, except for a newline at the very beginning. -/
theorem parseString_ml {d : StrType} (hd : d.isMultiline = false) {s o : Str}
    (hh : MlText d.toggle (dropFirstNl s) (dropFirstNl o)) (tail e : Str) (a : List Key) (l : List Loss)
    (ht : tail.head? ≠ some d.unit) :
    ∃ e', parseString d ⟨List.replicate 3 d.unit ++ (o ++ (List.replicate 3 d.unit ++ tail)), e, a, l⟩ =
      .ok (.str d.toggle (dropFirstNl s) o {}) ⟨tail, e', a, l⟩ := by
  have hu : d.toggle.unit = d.unit := by cases d <;> rfl
  have hm : d.toggle.isMultiline = true := by cases d <;> simp_all [StrType.toggle, StrType.isMultiline]
  refine ⟨o ++ List.replicate 3 d.unit, ?_⟩
  unfold parseString
  obtain ⟨y, r, hyr⟩ := exists_cons_append o d.unit (List.replicate 2 d.unit ++ tail)
  have hyr' : o ++ (List.replicate 3 d.unit ++ tail) = y :: r := by
    rw [← hyr]; simp [List.replicate_succ]
  rw [hyr']
  simp [List.replicate_succ, strBody]
  rw [← hyr, ← hu, P.bind_def, skipFirstNl_ml hm]
  simp only [getSt_bind]
  have e1 : dropFirstNl o ++ d.toggle.unit :: (List.replicate 2 d.toggle.unit ++ tail) =
      dropFirstNl o ++ (List.replicate 3 d.toggle.unit ++ tail) := by simp [List.replicate_succ]
  rw [e1, strLoop_ml hm hh _ _ _ _ _ _ (by simp; omega) (by rw [hu]; exact ht)]
  simp [firstNl_append, List.replicate_succ]

theorem dropFirstNl_escTriple (s : Str) : dropFirstNl (escTriple mlbEsc s) = escTriple mlbEsc (dropFirstNl s) := by
  match s with
  | [] => rfl
  | c :: r =>
    by_cases h : ∃ r', c :: r = 34 :: 34 :: 34 :: r'
    · obtain ⟨r', hr'⟩ := h
      simp [hr', dropFirstNl, escTriple, escOf]
    · rw [escTriple_cons _ _ _ h]
      cases hE : mlbEsc c with
      | true =>
        have h10 : c ≠ 10 := by intro h; simp [h, mlbEsc, isCtrl] at hE
        have h13 : c ≠ 13 := by intro h; simp [h, mlbEsc, isCtrl] at hE
        have e1 : dropFirstNl (c :: r) = c :: r := by
          unfold dropFirstNl; split <;> simp_all
        rw [e1, escTriple_cons _ _ _ h, hE]
        rcases esc_cases (c := c) (by simp [hE]) with ⟨x, hx, _⟩ | ⟨p, q, u, v, hx, _⟩ <;> simp [hx, dropFirstNl]
      | false =>
        simp only [Bool.false_eq_true, if_false, List.singleton_append]
        by_cases h10 : c = 10
        · subst h10; rfl
        · by_cases h13 : c = 13
          · subst h13
            cases r with
            | nil => simp [escTriple, dropFirstNl, mlbEsc, isCtrl]
            | cons d r =>
              by_cases hd : d = 10
              · subst hd; simp [dropFirstNl, escTriple, mlbEsc, isCtrl]
              · have e1 : dropFirstNl (13 :: d :: r) = 13 :: d :: r := by
                  unfold dropFirstNl; split <;> simp_all
                have hhd : (escTriple mlbEsc (d :: r)).head? ≠ some 10 := by
                  by_cases h3 : ∃ r', d :: r = 34 :: 34 :: 34 :: r'
                  · obtain ⟨r', hr'⟩ := h3
                    simp [hr', escTriple, escOf]
                  · rw [escTriple_cons _ _ _ h3]
                    cases hE : mlbEsc d with
                    | true =>
                      rcases esc_cases (c := d) (by simp [hE]) with ⟨x, hx, _⟩ | ⟨p, q, u, v, hx, _⟩ <;> simp [hx]
                    | false => simp [hd]
                rw [e1, escTriple_cons _ _ _ h]
                simp only [hE, Bool.false_eq_true, if_false, List.singleton_append]
                generalize escTriple mlbEsc (d :: r) = x at hhd
                cases x with
                | nil => rfl
                | cons y x =>
                  have : y ≠ 10 := by simpa using hhd
                  unfold dropFirstNl
                  split <;> simp_all
          · have e1 : dropFirstNl (c :: r) = c :: r := by unfold dropFirstNl; split <;> simp_all
            rw [e1, escTriple_cons _ _ _ h, hE]
            simp only [Bool.false_eq_true, if_false, List.singleton_append]
            unfold dropFirstNl
            split <;> simp_all

end Tomlkit
