import Verif.Model.Api
/-! `escape_string` as a character-by-character function. -/
namespace Tomlkit

/-- Escape every character of a class; nothing longer. -/
def escEach (E : Chr → Bool) (s : Str) : Str := s.flatMap fun c => if E c then escOf [c] else [c]

/-- As `escEach`, and also every run of three double quotes, left to right. -/
def escTriple (E : Chr → Bool) : Str → Str
  | 34 :: 34 :: 34 :: r => escOf [34, 34, 34] ++ escTriple E r
  | c :: r => (if E c then escOf [c] else [c]) ++ escTriple E r
  | [] => []

theorem slice_self (s : Str) (a : Nat) : slice s a a = [] := by simp [slice]

theorem escFlush_eq (s : Str) (st : EscSt) : escFlush s st = slice s st.start st.i := by
  unfold escFlush
  split
  · rfl
  · next h => simp at h; rw [h, slice_self]

theorem isInfix_of_prefix {q s : Str} (h : q.isPrefixOf s = true) : isInfix q s = true := by
  cases s with
  | nil => simp [List.isPrefixOf_iff_prefix] at h; simp [isInfix, h]
  | cons c r => simp [isInfix, h]

theorem isInfix_drop {q s : Str} (i : Nat) (h : q.isPrefixOf (s.drop i) = true) : isInfix q s = true := by
  induction s generalizing i with
  | nil => simp at h; simp [isInfix, h]
  | cons c r ih =>
    cases i with
    | zero => exact isInfix_of_prefix (by simpa using h)
    | succ i =>
      simp only [isInfix, Bool.or_eq_true]
      exact Or.inr (ih i (by simpa using h))

/-- no sequence matches here: the inner loop does nothing -/
theorem foldl_escStep_none (s : Str) (st : EscSt) (l : List Str)
    (h : ∀ q ∈ l, q.isPrefixOf (s.drop st.i) = false) : l.foldl (escStep s) st = st := by
  induction l with
  | nil => rfl
  | cons q l ih =>
    have hq : escStep s st q = st := by simp [escStep, h q (by simp)]
    simp only [List.foldl_cons, hq]
    exact ih fun q' hq' => h q' (by simp [hq'])

/-- exactly one sequence matches here, and after it none of the others does -/
theorem foldl_escStep_one (s : Str) (st : EscSt) (l : List Str) (q : Str) (hd : l.Nodup) (hq : q ∈ l)
    (hm : q.isPrefixOf (s.drop st.i) = true)
    (h1 : ∀ q' ∈ l, q' ≠ q → q'.isPrefixOf (s.drop st.i) = false)
    (h2 : ∀ q' ∈ l, q' ≠ q → q'.isPrefixOf (s.drop (st.i + (q.length - 1))) = false) :
    l.foldl (escStep s) st =
      EscSt.mk (st.i + q.length) (st.i + (q.length - 1)) (st.res ++ (slice s st.start st.i ++ escOf q)) := by
  induction l generalizing st with
  | nil => simp at hq
  | cons a l ih =>
    simp only [List.foldl_cons]
    rw [List.nodup_cons] at hd
    by_cases ha : a = q
    · subst ha
      have hs : escStep s st a = EscSt.mk (st.i + a.length) (st.i + (a.length - 1))
          (st.res ++ (slice s st.start st.i ++ escOf a)) := by
        simp [escStep, hm, escFlush_eq]
      rw [hs]
      apply foldl_escStep_none
      intro q' hq'
      exact h2 q' (by simp [hq']) (fun h => hd.1 (h ▸ hq'))
    · have hs : escStep s st a = st := by simp [escStep, h1 a (by simp) ha]
      rw [hs]
      exact ih st hd.2 (by simpa [Ne.symm ha] using hq) hm (fun q' hq' => h1 q' (by simp [hq']))
        (fun q' hq' => h2 q' (by simp [hq']))

theorem slice_succ (s : Str) (a i : Nat) (ha : a ≤ i) (h : i < s.length) :
    slice s a (i + 1) = slice s a i ++ [s[i]] := by
  unfold slice
  have : i + 1 - a = (i - a) + 1 := by omega
  rw [this, List.take_succ_eq_append_getElem (by simp; omega)]
  simp
  congr 1
  omega

/-- what the loop produces from a given state -/
def escDone (s : Str) (st : EscSt) : Str := st.res ++ slice s st.start st.i

/-- Loop invariant: from any state the result is what was produced, plus the specification of the rest. -/
theorem escLoop_spec (s : Str) (seqs : List Str) (spec : Str → Str) (hd : seqs.Nodup)
    (hnil : spec [] = [])
    (hnone : ∀ c r, (∀ q ∈ seqs, q.isPrefixOf (c :: r) = false) → spec (c :: r) = c :: spec r)
    (hone : ∀ c r q, q ∈ seqs → q.isPrefixOf (c :: r) = true →
      0 < q.length ∧ spec (c :: r) = escOf q ++ spec ((c :: r).drop q.length) ∧
      (∀ q' ∈ seqs, q' ≠ q → q'.isPrefixOf (c :: r) = false) ∧
      (∀ q' ∈ seqs, q' ≠ q → q'.isPrefixOf ((c :: r).drop (q.length - 1)) = false)) :
    ∀ n st, st.start ≤ st.i → s.length ≤ st.i + n →
      escDone s (escLoop s (seqs.filter fun q => isInfix q s) n st) = escDone s st ++ spec (s.drop st.i) := by
  intro n
  induction n with
  | zero =>
    intro st _ hl
    simp [escLoop, List.drop_eq_nil_of_le (by omega : s.length ≤ st.i), hnil]
  | succ n ih =>
    intro st hs hl
    unfold escLoop
    by_cases hi : st.i < s.length
    · simp only [hi, if_true]
      have hdrop : s.drop st.i = s[st.i] :: s.drop (st.i + 1) := (List.getElem_cons_drop hi).symm
      by_cases hex : ∃ q ∈ seqs, q.isPrefixOf (s.drop st.i) = true
      · obtain ⟨q, hq, hm⟩ := hex
        rw [hdrop] at hm
        obtain ⟨hpos, hspec, hu1, hu2⟩ := hone _ _ q hq hm
        rw [← hdrop] at hm hspec hu1 hu2
        have hfold := foldl_escStep_one s st (seqs.filter fun q => isInfix q s) q (hd.filter _)
          (by simp [hq, isInfix_drop _ hm]) hm
          (fun q' hq' hne => hu1 q' (List.mem_filter.1 hq').1 hne)
          (fun q' hq' hne => by
            have := hu2 q' (List.mem_filter.1 hq').1 hne
            simpa [List.drop_drop] using this)
        rw [hfold]
        rw [ih _ (by simp; omega) (by simp; omega)]
        have hlen : q.length - 1 + 1 = q.length := by omega
        have e1 : st.i + (q.length - 1) + 1 = st.i + q.length := by omega
        simp only [escDone, e1, slice_self, List.append_nil]
        rw [hspec, List.drop_drop]
        simp
      · have hno : ∀ q ∈ seqs, q.isPrefixOf (s.drop st.i) = false := by
          intro q hq
          cases hb : q.isPrefixOf (s.drop st.i)
          · rfl
          · exact absurd ⟨q, hq, hb⟩ hex
        rw [foldl_escStep_none s st _ (fun q hq => hno q (List.mem_filter.1 hq).1)]
        rw [ih _ (by simp; omega) (by simp; omega)]
        simp only [escDone]
        rw [slice_succ s _ _ hs hi, hdrop, hnone _ _ (by rw [← hdrop]; exact hno)]
        simp
    · simp only [hi, if_false]
      simp [List.drop_eq_nil_of_le (by omega : s.length ≤ st.i), hnil]

theorem escapeString_spec (s : Str) (seqs : List Str) (spec : Str → Str) (hd : seqs.Nodup)
    (hnil : spec [] = [])
    (hnone : ∀ c r, (∀ q ∈ seqs, q.isPrefixOf (c :: r) = false) → spec (c :: r) = c :: spec r)
    (hone : ∀ c r q, q ∈ seqs → q.isPrefixOf (c :: r) = true →
      0 < q.length ∧ spec (c :: r) = escOf q ++ spec ((c :: r).drop q.length) ∧
      (∀ q' ∈ seqs, q' ≠ q → q'.isPrefixOf (c :: r) = false) ∧
      (∀ q' ∈ seqs, q' ≠ q → q'.isPrefixOf ((c :: r).drop (q.length - 1)) = false)) :
    escapeString s seqs = spec s := by
  have h := escLoop_spec s seqs spec hd hnil hnone hone s.length { start := 0, i := 0, res := [] }
    (by simp) (by simp)
  simp only [escDone, slice_self, List.append_nil, List.nil_append, List.drop_zero] at h
  simp only [escapeString, escFlush_eq]
  exact h

/-- Sequences of one character: `escape_string` works character by character. -/
theorem escapeString_each (s : Str) (seqs : List Str) (hd : seqs.Nodup) (h1 : ∀ q ∈ seqs, q.length = 1) :
    escapeString s seqs = escEach (fun c => seqs.contains [c]) s := by
  have key : ∀ (q : Str) c r, q.length = 1 → (q.isPrefixOf (c :: r) = true ↔ q = [c]) := by
    intro q c r hq
    match q, hq with
    | [a], _ => simp [List.isPrefixOf]
  apply escapeString_spec s seqs _ hd
  · rfl
  · intro c r h
    have : seqs.contains [c] = false := by
      cases hb : seqs.contains [c]
      · rfl
      · have := h [c] (by simpa using hb)
        simp [List.isPrefixOf] at this
    simp only [escEach, List.flatMap_cons, this]
    rfl
  · intro c r q hq hm
    have hl := h1 q hq
    have hqc := (key q c r hl).1 hm
    subst hqc
    refine ⟨by simp, ?_, ?_, ?_⟩
    · have : seqs.contains [c] = true := by simpa using hq
      simp only [escEach, List.flatMap_cons, this]
      simp
    · intro q' hq' hne
      cases hb : q'.isPrefixOf (c :: r)
      · rfl
      · exact absurd ((key q' c r (h1 q' hq')).1 hb) hne
    · intro q' hq' hne
      simp only [List.length_singleton, Nat.sub_self, List.drop_zero]
      cases hb : q'.isPrefixOf (c :: r)
      · rfl
      · exact absurd ((key q' c r (h1 q' hq')).1 hb) hne

/-- One-character sequences without the quote, and the triple quote. -/
theorem escapeString_triple (s : Str) (seqs : List Str) (hd : seqs.Nodup)
    (h1 : ∀ q ∈ seqs, q.length = 1 ∨ q = [34, 34, 34]) (h34 : [34] ∉ seqs) (h3 : [34, 34, 34] ∈ seqs) :
    escapeString s seqs = escTriple (fun c => seqs.contains [c]) s := by
  have key : ∀ (q : Str) c r, q.length = 1 → (q.isPrefixOf (c :: r) = true ↔ q = [c]) := by
    intro q c r hq
    match q, hq with
    | [a], _ => simp [List.isPrefixOf]
  have key3 : ∀ c r, (([34, 34, 34] : Str).isPrefixOf (c :: r) = true ↔ ∃ r', c :: r = 34 :: 34 :: 34 :: r') := by
    intro c r
    rw [List.isPrefixOf_iff_prefix]
    constructor
    · rintro ⟨t, ht⟩; exact ⟨t, by simpa using ht.symm⟩
    · rintro ⟨t, ht⟩; exact ⟨t, by simpa using ht.symm⟩
  have trip : ∀ c r, (¬ ∃ r', c :: r = 34 :: 34 :: 34 :: r') →
      escTriple (fun c => seqs.contains [c]) (c :: r) =
        (if seqs.contains [c] then escOf [c] else [c]) ++ escTriple (fun c => seqs.contains [c]) r := by
    intro c r h
    rw [escTriple]
    intro r' hc hr
    exact h ⟨r', by rw [hc, hr]⟩
  apply escapeString_spec s seqs _ hd
  · rfl
  · intro c r h
    have hc : seqs.contains [c] = false := by
      cases hb : seqs.contains [c]
      · rfl
      · have := h [c] (by simpa using hb)
        simp [List.isPrefixOf] at this
    rw [trip c r, hc]
    · rfl
    · intro hex
      have := h _ h3
      rw [(key3 c r).2 hex] at this
      exact absurd this (by simp)
  · intro c r q hq hm
    rcases h1 q hq with hl | hq3
    · have hqc := (key q c r hl).1 hm
      subst hqc
      have hc34 : c ≠ 34 := fun h => h34 (h ▸ hq)
      have hno : ¬ ∃ r', c :: r = 34 :: 34 :: 34 :: r' := by
        rintro ⟨r', hr'⟩; exact hc34 (List.cons.inj hr').1
      have huniq : ∀ q' ∈ seqs, q' ≠ [c] → q'.isPrefixOf (c :: r) = false := by
        intro q' hq' hne
        cases hb : q'.isPrefixOf (c :: r)
        · rfl
        · rcases h1 q' hq' with hl' | h3'
          · exact absurd ((key q' c r hl').1 hb) hne
          · subst h3'; exact absurd ((key3 c r).1 hb) hno
      refine ⟨by simp, ?_, huniq, by simpa using huniq⟩
      have : seqs.contains [c] = true := by simpa using hq
      rw [trip c r hno, this]
      simp
    · subst hq3
      obtain ⟨r', hr'⟩ := (key3 c r).1 hm
      have hother : ∀ x : Str, ∀ q' ∈ seqs, q' ≠ [34, 34, 34] → q'.isPrefixOf (34 :: x) = false := by
        intro x q' hq' hne
        cases hb : q'.isPrefixOf (34 :: x)
        · rfl
        · rcases h1 q' hq' with hl' | h3'
          · exact absurd ((key q' 34 x hl').1 hb ▸ hq') h34
          · exact absurd h3' hne
      refine ⟨by simp, ?_, ?_, ?_⟩
      · rw [hr']; simp [escTriple]
      · rw [hr']; exact hother _
      · rw [hr']; exact hother _

end Tomlkit
