import Verif.Model.Files
import Verif.Spec.Lines
/-!
# C28, C29, C36: files, error positions, custom encoders
-/
namespace Tomlkit

/-! ## C28 -/

theorem countCrLf_le (s : Str) : countCrLf s ≤ countLf s := by
  fun_induction countCrLf s <;> simp [countLf] <;> (try split) <;> omega

theorem crlfToLf_id (s : Str) (h : countCrLf s = 0) : crlfToLf s = s := by
  fun_induction crlfToLf s with
  | case1 r ih => simp [countCrLf] at h
  | case2 c r h1 ih =>
    rw [ih]
    rw [countCrLf] at h
    · exact h
    · exact h1
  | case3 => rfl

theorem lfToCrlf_noLf (s : Str) (b : Bool) (h : countLf s = 0) : lfToCrlf b s = s := by
  induction s generalizing b with
  | nil => rfl
  | cons c r ih =>
    simp only [countLf] at h
    split at h
    · omega
    · rename_i hc
      simp [lfToCrlf, hc, ih _ (by omega)]

theorem lfToCrlf_id (s : Str) (b : Bool) (h : countCrLf s = countLf s) : lfToCrlf b s = s := by
  fun_induction countCrLf s generalizing b with
  | case1 r ih =>
    have h' : countCrLf r = countLf r := by simp [countLf] at h; omega
    simp [lfToCrlf, ih _ h']
  | case2 c r h1 ih =>
    have hle := countCrLf_le r
    simp only [countLf] at h
    split at h
    · omega
    · rename_i hc
      simp [lfToCrlf, hc, ih _ (by omega)]
  | case3 => rfl

/-- Writing back the text that was read leaves the file as it is, whatever line endings it has (even a mixture),
and whatever separator was remembered before. -/
theorem C28_write_undoes_read (old : Sep) (s : Str) : writeText (detectSep old s) s = s := by
  unfold detectSep
  split
  · split
    · exact lfToCrlf_id s _ (by assumption)
    · split
      · exact crlfToLf_id s (by assumption)
      · rfl
  · have h0 : countLf s = 0 := by omega
    cases old
    · exact crlfToLf_id s (by have := countCrLf_le s; omega)
    · exact lfToCrlf_noLf s _ h0
    · rfl

/-- **C28, first half.** Whatever separator the file object starts with: reading a file and writing the document
that was read leaves the file unchanged, provided the document renders as the text that was read (that is C01; no
other loss occurs). No condition on the line endings is needed. -/
theorem C28_unmodified_file (old sep : Sep) (s : Str) (doc : Cont)
    (hr : fileRead old s = .ok (doc, sep)) (hdump : dumps doc = s) : fileWrite sep doc = s := by
  unfold fileRead at hr
  cases hp : parse s with
  | error e => simp [hp, Except.map] at hr
  | ok d =>
    simp only [hp, Except.map, Except.ok.injEq, Prod.mk.injEq] at hr
    unfold fileWrite
    rw [hdump, ← hr.2]
    exact C28_write_undoes_read old s

/-- a CRLF file with a table and a comment satisfies the hypotheses of `C28_unmodified_file` -/
def crlfSample : Str := t!"a = 1\x0d\n[t] # c\x0d\n"

set_option maxRecDepth 10000 in
example : ∃ doc, fileRead .lf crlfSample = .ok (doc, .crlf) ∧ dumps doc = crlfSample :=
  ⟨(parse crlfSample).toOption.getD (.empty false), by
    unfold fileRead
    have h : ∃ d, parse crlfSample = .ok d := by
      cases h : parse crlfSample with
      | ok d => exact ⟨d, rfl⟩
      | error e =>
        have : (parse crlfSample).toOption.isSome = true := by decide +kernel
        rw [h] at this
        exact absurd this (by simp [Except.toOption])
    obtain ⟨d, hd⟩ := h
    have hs : detectSep .lf crlfSample = .crlf := by decide +kernel
    have hdump : (parse crlfSample).toOption.map dumps = some crlfSample := by decide +kernel
    rw [hd] at hdump ⊢
    simp only [Except.toOption, Option.map_some, Option.some.injEq] at hdump
    simp [Except.map, Except.toOption, hs, hdump]⟩

theorem countLf_pos (s : Str) (h : Spec.HasLine s) : 0 < countLf s := by
  unfold Spec.HasLine at h
  induction s with
  | nil => simp at h
  | cons c r ih =>
    simp only [List.mem_cons] at h
    simp only [countLf]
    rcases h with h | h
    · rw [if_pos h.symm]; omega
    · have := ih h; omega

theorem countCrLf_of_onlyCrLf (s : Str) (h : Spec.OnlyCrLf s) : countCrLf s = countLf s := by
  fun_induction countCrLf s with
  | case1 r ih =>
    have h' : Spec.OnlyCrLf r := by
      intro a b hab
      obtain ⟨a', ha'⟩ := h (13 :: 10 :: a) b (by simp [hab])
      cases a with
      | nil =>
        have : ([13, 10] : Str).getLast? = some 13 := by rw [ha']; simp
        simp at this
      | cons x xs =>
        rcases List.eq_nil_or_concat (x :: xs) with h0 | ⟨L, b, hL⟩
        · cases h0
        · rw [hL, List.concat_eq_append] at ha' ⊢
          have := (List.append_inj' (s₁ := 13 :: 10 :: L) ha' rfl).2
          exact ⟨L, by rw [this]⟩
    simp [countLf, ih h']
  | case2 c r h1 ih =>
    have hc : c ≠ 10 := by
      intro hc
      obtain ⟨a', ha'⟩ := h [] r (by simp [hc])
      simp at ha'
    have h' : Spec.OnlyCrLf r := by
      intro a b hab
      obtain ⟨a', ha'⟩ := h (c :: a) b (by simp [hab])
      cases a' with
      | nil =>
        simp at ha'
        exact absurd (by rw [hab, ha'.2]; rfl) (h1 b ha'.1)
      | cons y ys =>
        simp at ha'
        exact ⟨ys, ha'.2⟩
    simp [countLf, hc, ih h']
  | case3 => rfl

theorem countCrLf_of_onlyLf (s : Str) (h : Spec.OnlyLf s) : countCrLf s = 0 := by
  fun_induction countCrLf s with
  | case1 r ih => exact absurd rfl (h [] r)
  | case2 c r h1 ih =>
    exact ih fun a b hab => h (c :: a) b (by simp [hab])
  | case3 => rfl

theorem lfToCrlf_onlyCrLf (w : Str) (b : Bool) (x y : Str) (h : lfToCrlf b w = x ++ 10 :: y) :
    (x = [] ∧ b = true) ∨ ∃ x', x = x' ++ [13] := by
  induction w generalizing b x with
  | nil => simp [lfToCrlf] at h
  | cons c r ih =>
    simp only [lfToCrlf] at h
    split at h
    · rename_i hc
      cases x with
      | nil => simp at h
      | cons x0 xs =>
        simp at h
        cases xs with
        | nil => exact .inr ⟨[], by simp [← h.1]⟩
        | cons x1 xs =>
          simp at h
          rcases ih _ _ h.2.2 with ⟨_, h2⟩ | ⟨x', hx'⟩
          · simp [hc.1] at h2
          · exact .inr ⟨x0 :: x1 :: x', by simp [hx']⟩
    · rename_i hc
      cases x with
      | nil =>
        simp at h
        left
        refine ⟨rfl, ?_⟩
        cases b with
        | true => rfl
        | false => exact absurd ⟨h.1, rfl⟩ hc
      | cons x0 xs =>
        simp at h
        rcases ih _ _ h.2 with ⟨h1, h2⟩ | ⟨x', hx'⟩
        · simp at h2
          exact .inr ⟨[], by simp [h1, ← h.1, h2]⟩
        · exact .inr ⟨x0 :: x', by simp [hx']⟩

/-- **C28, second half, CRLF.** After reading a file all of whose line breaks are CRLF (with at least one), the text
written for any document has only CRLF line breaks. -/
theorem C28_crlf_file (old : Sep) (s : Str) (hline : Spec.HasLine s) (hs : Spec.OnlyCrLf s) (doc : Cont) :
    Spec.OnlyCrLf (fileWrite (detectSep old s) doc) := by
  have h : detectSep old s = .crlf := by
    unfold detectSep
    rw [if_pos (countLf_pos s hline), if_pos (countCrLf_of_onlyCrLf s hs)]
  intro a b hab
  rw [h] at hab
  rcases lfToCrlf_onlyCrLf _ _ _ _ hab with ⟨_, h2⟩ | h2
  · simp at h2
  · exact h2

example : Spec.HasLine crlfSample ∧ Spec.OnlyCrLf (t!"a\x0d\n") := by
  refine ⟨by unfold Spec.HasLine; decide +kernel, ?_⟩
  intro a b hab
  match a, hab with
  | [], hab => simp at hab
  | [x], hab => simp at hab
  | [x, y], hab => simp at hab; exact ⟨[x], by simp [hab.2.1]⟩
  | x :: y :: z :: a, hab => simp at hab

theorem crlfToLf_head (w : Str) (b : Str) : crlfToLf w = 10 :: b → (∃ w', w = 10 :: w') ∨ ∃ w', w = 13 :: 10 :: w' := by
  intro h
  fun_cases crlfToLf w with
  | case1 r => exact .inr ⟨r, rfl⟩
  | case2 c r h1 =>
    rw [crlfToLf] at h
    · simp at h; exact .inl ⟨r, by rw [h.1]⟩
    · exact h1
  | case3 => simp [crlfToLf] at h

theorem crlfToLf_bad (w a b : Str) (h : crlfToLf w = a ++ 13 :: 10 :: b) :
    ∃ x y, w = x ++ 13 :: 13 :: 10 :: y := by
  fun_induction crlfToLf w generalizing a with
  | case1 r ih =>
    cases a with
    | nil => simp at h
    | cons a0 a =>
      simp at h
      obtain ⟨x, y, hxy⟩ := ih a h.2
      exact ⟨13 :: 10 :: x, y, by simp [hxy]⟩
  | case2 c r h1 ih =>
    cases a with
    | nil =>
      simp at h
      rcases crlfToLf_head _ _ h.2 with ⟨w', hw⟩ | ⟨w', hw⟩
      · exact absurd hw (h1 w' h.1)
      · exact ⟨[], w', by rw [hw, h.1]; rfl⟩
    | cons a0 a =>
      simp at h
      obtain ⟨x, y, hxy⟩ := ih a h.2
      exact ⟨c :: x, y, by simp [hxy]⟩
  | case3 => simp at h

theorem crlfToLf_good (x y : Str) : ∃ a b, crlfToLf (x ++ 13 :: 13 :: 10 :: y) = a ++ 13 :: 10 :: b := by
  generalize hw : x ++ 13 :: 13 :: 10 :: y = w
  fun_induction crlfToLf w generalizing x with
  | case1 r ih =>
    match x, hw with
    | [], hw => simp at hw
    | [_], hw => simp at hw
    | x0 :: x1 :: x, hw =>
      simp at hw
      obtain ⟨a, b, hab⟩ := ih x hw.2.2
      exact ⟨10 :: a, b, by simp [hab]⟩
  | case2 c r h1 ih =>
    match x, hw with
    | [], hw =>
      simp at hw
      refine ⟨[], crlfToLf y, ?_⟩
      rw [← hw.2, ← hw.1]
      simp [crlfToLf]
    | x0 :: x, hw =>
      simp at hw
      obtain ⟨a, b, hab⟩ := ih x hw.2
      exact ⟨c :: a, b, by simp [hab]⟩
  | case3 => simp at hw

/-- **C28, second half, LF.** After reading a file with LF line breaks only (with at least one), the text written
for a document has only LF line breaks exactly when the rendering of the document has no `\r\r\n`. (Missing for the
full claim: the code turns `\r\r\n` into `\r\n`, see `C28_counterexample`.) -/
theorem C28_lf_file_partial (old : Sep) (s : Str) (hline : Spec.HasLine s) (hs : Spec.OnlyLf s) (doc : Cont) :
    Spec.OnlyLf (fileWrite (detectSep old s) doc) ↔ ∀ a b, dumps doc ≠ a ++ 13 :: 13 :: 10 :: b := by
  have h : detectSep old s = .lf := by
    have h1 := countLf_pos s hline
    have h2 := countCrLf_of_onlyLf s hs
    unfold detectSep
    rw [if_pos h1, if_neg (by omega), if_pos h2]
  rw [h]
  constructor
  · intro hw a b hab
    obtain ⟨a', b', h'⟩ := crlfToLf_good a b
    exact hw a' b' (by unfold fileWrite writeText; rw [hab]; exact h')
  · intro hw a b hab
    obtain ⟨x, y, hxy⟩ := crlfToLf_bad _ _ _ hab
    exact hw x y hxy

/-- a document that a user can put into an LF file: a multi-line string with the line break `\r\r\n` -/
def crcrlfSample : Str := t!"a = \"\"\"x\x0d\x0d\n\"\"\""

/-- **C28 fails** for LF files and a document that holds `\r\r\n`: an LF file is read, another document is
written to it, and the file has a CRLF line break. -/
theorem C28_counterexample : ∃ doc, parse crcrlfSample = .ok doc ∧ Spec.OnlyLf (t!"a\n") ∧
    detectSep .crlf (t!"a\n") = .lf ∧ ¬ Spec.OnlyLf (fileWrite .lf doc) := by
  have h : (parse crcrlfSample).toOption.map (fun d => fileWrite .lf d) = some (t!"a = \"\"\"x\x0d\n\"\"\"") := by
    decide +kernel
  cases hp : parse crcrlfSample with
  | error e => rw [hp] at h; simp [Except.toOption] at h
  | ok d =>
    rw [hp] at h
    simp only [Except.toOption, Option.map_some, Option.some.injEq] at h
    refine ⟨d, rfl, ?_, by decide +kernel, ?_⟩
    · intro a b hab
      match a, hab with
      | [], hab => simp at hab
      | [x], hab => simp at hab
      | x :: y :: a, hab => simp at hab
    · intro hw
      rw [h] at hw
      exact hw (t!"a = \"\"\"x") (t!"\"\"\"") rfl

/-! ## C29 -/

theorem plain_break (c : Chr) (h : c ∉ [11, 12, 13, 28, 29, 30, 0x85, 0x2028, 0x2029]) :
    isLineBreak c = decide (c = 10) := by
  simp at h
  unfold isLineBreak
  rw [Bool.eq_iff_iff]
  simp
  omega

theorem splitLinesAux_plain (cur : Str) (c : Chr) (r : Str) (h : c ∉ [11, 12, 13, 28, 29, 30, 0x85, 0x2028, 0x2029]) :
    splitLinesAux cur (c :: r) = if c = 10 then cur.reverse :: splitLinesAux [] r else splitLinesAux (c :: cur) r := by
  have h13 : c ≠ 13 := by intro h'; simp [h'] at h
  rw [splitLinesAux]
  · rw [plain_break c h]; simp
  · intro r' h'; exact absurd h' h13

theorem takeWhile_stop (a b : Str) : (a ++ 10 :: b).takeWhile (· != 10) = a.takeWhile (· != 10) := by
  induction a with
  | nil => simp
  | cons x a ih => simp only [List.cons_append, List.takeWhile_cons, ih]

theorem columnOf_skip (c r : Str) (q : Nat) : Spec.columnOf (c ++ 10 :: r) (c.length + 1 + q) = Spec.columnOf r q := by
  unfold Spec.columnOf
  have : (c ++ 10 :: r).take (c.length + 1 + q) = (c ++ [10]) ++ r.take q := by
    rw [show c ++ 10 :: r = (c ++ [10]) ++ r from by simp]
    rw [show c.length + 1 + q = (c ++ [10]).length + q from by simp]
    exact List.take_length_add_append q
  rw [this]
  simp only [List.reverse_append, List.reverse_cons, List.reverse_nil, List.nil_append, List.cons_append]
  rw [takeWhile_stop]

theorem lineOf_skip (c r : Str) (q : Nat) (hc : 10 ∉ c) :
    Spec.lineOf (c ++ 10 :: r) (c.length + 1 + q) = 1 + Spec.lineOf r q := by
  unfold Spec.lineOf
  have : (c ++ 10 :: r).take (c.length + 1 + q) = (c ++ [10]) ++ r.take q := by
    rw [show c ++ 10 :: r = (c ++ [10]) ++ r from by simp]
    rw [show c.length + 1 + q = (c ++ [10]).length + q from by simp]
    exact List.take_length_add_append q
  rw [this]
  simp [List.count_eq_zero_of_not_mem hc]
  omega

theorem first_line (c r : Str) (p : Nat) (hc : 10 ∉ c) (hp : p ≤ c.length) :
    Spec.lineOf (c ++ r) p = 1 ∧ Spec.columnOf (c ++ r) p = p := by
  unfold Spec.lineOf Spec.columnOf
  rw [List.take_append_of_le_length hp]
  have hc' : 10 ∉ c.take p := fun h => hc (List.mem_of_mem_take h)
  refine ⟨by simp [List.count_eq_zero_of_not_mem hc'], ?_⟩
  have h2 : (c.take p).reverse.takeWhile (· != 10) = (c.take p).reverse := by
    have h3 := List.takeWhile_append_of_pos (p := (· != 10)) (l₁ := (c.take p).reverse) (l₂ := []) (by
      intro a ha
      have : a ≠ 10 := by intro h; rw [h] at ha; exact hc' (by simpa using ha)
      simp [this])
    simpa using h3
  rw [h2]
  simp; omega

theorem last_skip (c s : Str) :
    (c ++ 10 :: s).getLast?.all (· = 10) = s.getLast?.all (· = 10) := by
  rcases List.eq_nil_or_concat s with h | ⟨L, b, h⟩
  · simp [h]
  · rw [h, List.concat_eq_append, ← List.cons_append, ← List.append_assoc]
    simp only [List.getLast?_append, List.getLast?_singleton, Option.or_eq_some_iff]
    simp

theorem lineColLoop_plain (s : Str) : ∀ (c : Str) (i base p : Nat), 10 ∉ c → Spec.PlainLines s →
    p ≤ c.length + s.length →
    lineColLoop (base + p) i base (splitLinesAux c s) =
      if p = c.length + s.length ∧ (c.reverse ++ s).getLast?.all (· = 10) then none
      else some (i + Spec.lineOf (c.reverse ++ s) p, Spec.columnOf (c.reverse ++ s) p) := by
  induction s with
  | nil =>
    intro c i base p hc _ hp
    have hcr : 10 ∉ c.reverse := by simpa using hc
    cases c with
    | nil => simp at hp; simp [splitLinesAux, lineColLoop, hp]
    | cons x c =>
      have hx : x ≠ 10 := by intro h; simp [h] at hc
      obtain ⟨h1, h2⟩ := first_line (x :: c).reverse [] p hcr (by simpa using hp)
      rw [h1, h2]
      simp at hp
      simp [splitLinesAux, lineColLoop, hx]
      omega
  | cons x s ih =>
    intro c i base p hc hs hp
    have hx := hs x (by simp)
    have hs' : Spec.PlainLines s := fun y hy => hs y (by simp [hy])
    have hcr : 10 ∉ c.reverse := by simpa using hc
    rw [splitLinesAux_plain _ _ _ hx]
    by_cases h10 : x = 10
    · subst h10
      rw [if_pos rfl]
      simp only [lineColLoop, List.length_reverse]
      by_cases hpk : p ≤ c.length
      · obtain ⟨h1, h2⟩ := first_line c.reverse (10 :: s) p hcr (by simpa using hpk)
        rw [if_pos (by omega), h1, h2, if_neg (by simp; omega)]
        simp
      · obtain ⟨q, rfl⟩ : ∃ q, p = c.length + 1 + q := ⟨p - c.length - 1, by omega⟩
        have hq := ih [] (i + 1) (base + c.length + 1) q (by simp) hs' (by simp at hp ⊢; omega)
        rw [if_neg (by omega)]
        have hbase : base + (c.length + 1 + q) = base + c.length + 1 + q := by omega
        rw [hbase, hq]
        have hl := lineOf_skip c.reverse s q hcr
        have hcol := columnOf_skip c.reverse s q
        rw [List.length_reverse] at hl hcol
        rw [hl, hcol]
        rw [last_skip]
        simp only [List.reverse_nil, List.nil_append, List.length_nil, Nat.zero_add, List.length_cons]
        by_cases hq2 : q = s.length ∧ s.getLast?.all (· = 10)
        · rw [if_pos hq2, if_pos ⟨by omega, hq2.2⟩]
        · rw [if_neg hq2, if_neg (by rintro ⟨h1, h2⟩; exact hq2 ⟨by omega, h2⟩)]
          simp; omega
    · rw [if_neg h10]
      have := ih (x :: c) i base p (by simp; exact ⟨fun h => h10 h.symm, hc⟩) hs' (by simp at hp ⊢; omega)
      rw [this]
      have e1 : (x :: c).reverse ++ s = c.reverse ++ x :: s := by simp
      have e2 : (x :: c).length + s.length = c.length + (x :: s).length := by simp; omega
      rw [e1, e2]

theorem splitLinesAux_length (s : Str) (c : Str) (hs : Spec.PlainLines s)
    (h : (c.reverse ++ s).getLast?.all (· = 10)) (hc : 10 ∉ c) : (splitLinesAux c s).length = s.count 10 := by
  induction s generalizing c with
  | nil =>
    cases c with
    | nil => simp [splitLinesAux]
    | cons x c =>
      exfalso
      simp at h hc
      exact hc.1 h.symm
  | cons x s ih =>
    have hx := hs x (by simp)
    have hs' : Spec.PlainLines s := fun y hy => hs y (by simp [hy])
    rw [splitLinesAux_plain _ _ _ hx]
    by_cases h10 : x = 10
    · subst h10
      simp
      apply ih _ hs' _ (by simp)
      rw [last_skip] at h
      simpa using h
    · rw [if_neg h10, ih _ hs' _ (by simp; exact ⟨fun h => h10 h.symm, hc⟩)]
      · rw [List.count_cons_of_ne h10]
      · simpa using h

/-- the positions for which `_to_linecol` is wrong: the end of the text, when the text is empty or ends with a
line break -/
def AfterLastLine (s : Str) (i : Nat) : Prop := i = s.length ∧ ∀ c, s.getLast? = some c → c = 10

/-- **C29 (partial).** For a text whose only line separators are `\n`, and every position in it (its end included),
the line and column reported are the true ones, exactly when the position is not the end of a text that is empty or
ends with a line break; there the code reports one line too few. Missing: texts with CRLF or other Unicode line
separators, for which the reported column is wrong, see `C29_counterexample_crlf`. -/
theorem C29_position_partial (s : Str) (i : Nat) (hs : Spec.PlainLines s) (hi : i ≤ s.length) :
    (¬ AfterLastLine s i → toLineCol s i = (Spec.lineOf s i, Spec.columnOf s i)) ∧
    (AfterLastLine s i → toLineCol s i = (Spec.lineOf s i - 1, 0)) := by
  have h := lineColLoop_plain s [] 0 0 i (by simp) hs (by simpa using hi)
  simp only [List.length_nil, Nat.zero_add, List.reverse_nil, List.nil_append] at h
  have hall : (s.getLast?.all (· = 10)) = true ↔ ∀ c, s.getLast? = some c → c = 10 := by
    cases s.getLast? <;> simp
  constructor
  · intro hn
    unfold AfterLastLine at hn
    rw [← hall] at hn
    rw [if_neg hn] at h
    unfold toLineCol splitLines
    rw [h]
  · intro ha
    unfold AfterLastLine at ha
    rw [← hall] at ha
    rw [if_pos ha] at h
    unfold toLineCol
    have hlen := splitLinesAux_length s [] hs (by simpa using ha.2) (by simp)
    unfold splitLines
    rw [h, hlen]
    unfold Spec.lineOf
    rw [ha.1]
    simp

/-- The error that `parse` raises is located by `toLineCol`, hence by `C29_position_partial`. -/
theorem C29_error_partial (s : Str) (hs : Spec.PlainLines s) (p : Nat × Nat) (h : errorPosition s = some p) :
    ∃ k rem, parse s = .error (.parse k rem) ∧
      (¬ AfterLastLine s (s.length - rem) →
        p = (Spec.lineOf s (s.length - rem), Spec.columnOf s (s.length - rem))) := by
  unfold errorPosition at h
  split at h
  · rename_i k rem hp
    simp at h
    refine ⟨k, rem, hp, ?_⟩
    intro hn
    rw [← h]
    exact (C29_position_partial s (s.length - rem) hs (by omega)).1 hn
  · simp at h

set_option maxRecDepth 10000 in
example : Spec.PlainLines (t!"a = 1\nb = 2\nc = = 3\n") ∧ ¬ AfterLastLine (t!"a = 1\nb = 2\nc = = 3\n") 16 ∧
    errorPosition (t!"a = 1\nb = 2\nc = = 3\n") = some (3, 4) := by
  refine ⟨by unfold Spec.PlainLines; decide +kernel, ?_, by decide +kernel⟩
  intro h
  simp [AfterLastLine] at h

/-- **C29 fails** with CRLF line breaks: the `=` at position 11 of `a = 1⏎b = = 2` (CRLF) is in line 2, column 4, the
code says column 5; after two lines it would be off by two. -/
theorem C29_counterexample_crlf :
    errorPosition (t!"a = 1\x0d\nb = = 2") = some (2, 5) ∧ Spec.lineOf (t!"a = 1\x0d\nb = = 2") 11 = 2 ∧
      Spec.columnOf (t!"a = 1\x0d\nb = = 2") 11 = 4 := by
  decide +kernel

/-- **C29 fails** at the end of a text that ends with a line break: an unfinished array is reported in line 1. -/
theorem C29_counterexample_eof :
    errorPosition (t!"a = [\n") = some (1, 0) ∧ Spec.lineOf (t!"a = [\n") 6 = 2 := by
  decide +kernel

/-! ## C36 -/

/-- **C36, conversion.** `item(v)` for a value that no built-in conversion handles: if some registered encoder does
not raise `TypeError`, the first such encoder decides, whatever comes after it; otherwise `ConvertError`. -/
theorem C36_first_encoder {E V α : Type} (run : E → V → EncResult α) (v : V) (reg : List E) :
    (∀ pre e post, reg = pre ++ e :: post → (∀ x ∈ pre, run x v = .typeError) → run e v ≠ .typeError →
      tryEncoders run v reg =
        match run e v with
        | .item i => .item i
        | .raises => .raises
        | _ => .convertError) ∧
    ((∀ x ∈ reg, run x v = .typeError) → tryEncoders run v reg = .convertError) := by
  constructor
  · intro pre e post hreg hpre he
    subst hreg
    induction pre with
    | nil => cases h : run e v <;> simp [tryEncoders, h] at he ⊢
    | cons x pre ih =>
      rw [List.cons_append, tryEncoders, hpre x (by simp)]
      exact ih fun y hy => hpre y (by simp [hy])
  · intro h
    induction reg with
    | nil => rfl
    | cons x reg ih =>
      rw [tryEncoders, h x (by simp)]
      exact ih fun y hy => h y (by simp [hy])

example : tryEncoders (α := Nat) (fun e v => if e = v then .item e else .typeError) 2 [1, 2, 3] = .item 2 := by decide

/-- **C36, unregistering.** Unregistering an encoder that is registered removes exactly its first registration and
leaves the others in order; unregistering one that is not registered changes nothing. -/
theorem C36_unregister {E : Type} [DecidableEq E] (reg : List E) (e : E) :
    (e ∉ reg → unregisterEncoder reg e = reg) ∧
    (∀ pre post, reg = pre ++ e :: post → e ∉ pre → unregisterEncoder reg e = pre ++ post) := by
  constructor
  · intro h
    induction reg with
    | nil => rfl
    | cons x r ih =>
      simp at h
      rw [unregisterEncoder, if_neg (fun h' => h.1 h'.symm), ih h.2]
  · intro pre post hreg hpre
    subst hreg
    induction pre with
    | nil => simp [unregisterEncoder]
    | cons x r ih =>
      simp at hpre
      rw [List.cons_append, unregisterEncoder, if_neg (fun h' => hpre.1 h'.symm), ih hpre.2]
      rfl

/-- **C36, registering.** A newly registered encoder is tried after all the others: it decides only where they all
raise `TypeError`; registering and unregistering a new encoder restores the registry. -/
theorem C36_register {E V α : Type} [DecidableEq E] (run : E → V → EncResult α) (v : V) (reg : List E) (e : E) :
    (∀ x ∈ reg, run x v ≠ .typeError → tryEncoders run v (registerEncoder reg e) = tryEncoders run v reg) ∧
    (e ∉ reg → unregisterEncoder (registerEncoder reg e) e = reg) := by
  constructor
  · intro x hx hr
    unfold registerEncoder
    induction reg with
    | nil => simp at hx
    | cons y reg ih =>
      simp only [List.cons_append, tryEncoders]
      cases hy : run y v with
      | typeError =>
        simp only
        rcases List.mem_cons.1 hx with h | h
        · rw [h] at hr; exact absurd hy hr
        · exact ih h
      | _ => rfl
  · intro h
    have := (C36_unregister (reg ++ [e]) e).2 reg [] rfl h
    simpa [registerEncoder] using this

end Tomlkit
