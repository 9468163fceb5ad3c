import Verif.Proofs.Keys
import Verif.Spec.Text
/-! # C02, C03, C04, C05: strings and keys -/
namespace Tomlkit
open Spec

/-! ## value() on a string -/

theorem parseValue_dq (n : Nat) (r e : Str) (a l) :
    parseValue (n + 1) ⟨34 :: r, e, a, l⟩ = restoring (parseString .slb) ⟨34 :: r, [], a, l⟩ := by
  rw [parseValue]; simp
theorem parseValue_sq (n : Nat) (r e : Str) (a l) :
    parseValue (n + 1) ⟨39 :: r, e, a, l⟩ = restoring (parseString .sll) ⟨39 :: r, [], a, l⟩ := by
  rw [parseValue]; simp

theorem restoring_ok {α : Type} {m : P α} {st st' : St} {a : α} (h : m st = .ok a st') :
    restoring m st = .ok a st' := by simp [restoring, h]

theorem apiValue_of {raw : Str} {v : Item} {e a l} (h : parseValue (valueFuel raw) (.init raw) = .ok v ⟨[], e, a, l⟩) :
    apiValue raw = .ok v := by
  unfold apiValue
  rw [h]
  simp

/-- **C02.** For every string `s`, `string(s)` (= `item(s)`) succeeds; its text is parsed completely by `value()`,
as a string equal to `s`, spelled the same way. -/
theorem C02_default_string_survives (s : Str) :
    apiString s false false true = .ok (stringItem s) ∧
    apiValue (stringItem s).asString = .ok (stringItem s) := by
  constructor
  · simp [apiString, fromRaw, StrType.select, StrType.invalidSequences, stringItem, StrType.escapedSequences]
  · have ht : (stringItem s).asString = 34 :: (escEach slbEsc s ++ [34]) := by
      simp [stringItem, escapeString_slb, Item.asString, StrType.value]
    rw [ht]
    obtain ⟨e', h⟩ := parseString_slb s [] [] [] [] (by simp)
    have hi : stringItem s = .str .slb s (escEach slbEsc s) {} := by rw [stringItem, escapeString_slb]
    rw [hi]
    refine apiValue_of (e := e') (a := []) (l := []) ?_
    simp only [valueFuel, St.init]
    rw [parseValue_dq, restoring_ok h]

/-- the value that `stringItem` carries, to make the statement above self-contained -/
theorem C02_value (s : Str) : ∃ o, stringItem s = .str .slb s o {} := ⟨_, rfl⟩

/-- The statement is not vacuous: quotes, backslashes, control characters, an emoji and a lone surrogate. -/
example : (stringItem (t!"a\"b\\c\u0001\n😀" ++ [0xd800])).asString
    = t!"\"a\\\"b\\\\c\\u0001\\n😀" ++ [0xd800, 34] := by decide +kernel

/-! ## C03 -/

theorem dropFirstNl_eq (s : Str) : dropFirstNl s = withoutFirstNewline s := rfl

theorem no_infix_char {l : List Str} {s : Str} (h : (l.any fun q => isInfix q s) = false) {c : Chr} (hc : c ∈ s)
    (hl : [c] ∈ l) : False := by
  have : isInfix [c] s = true := by
    clear h hl
    induction s with
    | nil => simp at hc
    | cons d s ih =>
      simp only [isInfix, Bool.or_eq_true]
      rcases List.mem_cons.1 hc with rfl | hc
      · left; simp [List.isPrefixOf]
      · exact Or.inr (ih hc)
  rw [List.any_eq_false] at h
  exact absurd this (by simpa using h _ hl)

theorem withoutFirstNewline_mem {s : Str} {c : Chr} (h : c ∈ withoutFirstNewline s) : c ∈ s := by
  unfold withoutFirstNewline at h
  split at h <;> simp_all

theorem isInfix_of_cons {q : Str} {c : Chr} {r : Str} (h : isInfix q r = true) : isInfix q (c :: r) = true := by
  simp [isInfix, h]

theorem withoutFirstNewline_infix {q s : Str} (h : isInfix q s = false) : isInfix q (withoutFirstNewline s) = false := by
  cases hb : isInfix q (withoutFirstNewline s)
  · rfl
  · have : isInfix q s = true := by
      unfold withoutFirstNewline at hb
      split at hb
      · exact isInfix_of_cons hb
      · exact isInfix_of_cons (isInfix_of_cons hb)
      · exact hb
    rw [this] at h
    exact h

/-- **C03, exactly as the code behaves.** Whenever `string(s, literal=, multiline=)` succeeds, its text is parsed
completely by `value()`, as a string of the same kind with the same text; its value is `s`, except that a
multi-line string loses one line break at its beginning. -/
theorem C03_exact (s : Str) (literal multiline : Bool) (it : Item)
    (h : apiString s literal multiline true = .ok it) :
    ∃ o, it = .str (StrType.select literal multiline) s o {} ∧
      apiValue it.asString =
        .ok (.str (StrType.select literal multiline) (if multiline then withoutFirstNewline s else s) o {}) := by
  unfold apiString fromRaw at h
  split at h
  · simp at h
  next hinv =>
  simp only [Bool.not_eq_true] at hinv
  injection h with h
  refine ⟨_, h.symm, ?_⟩
  rw [← h]
  cases literal <;> cases multiline
  · -- single-line basic
    have := (C02_default_string_survives s).2
    simpa [stringItem, StrType.select, StrType.escapedSequences] using this
  · -- multi-line basic
    show apiValue (Item.str .mlb s (if (true && !StrType.mlb.escapedSequences.isEmpty) = true then
      escapeString s StrType.mlb.escapedSequences else s) {}).asString = .ok (.str .mlb (withoutFirstNewline s)
      (if (true && !StrType.mlb.escapedSequences.isEmpty) = true then
        escapeString s StrType.mlb.escapedSequences else s) {})
    have e1 : (true && !StrType.mlb.escapedSequences.isEmpty) = true := by decide +kernel
    rw [if_pos e1, escapeString_mlb]
    have hm := mlText_mlb (dropFirstNl s)
    rw [← dropFirstNl_escTriple] at hm
    obtain ⟨e', hp⟩ := parseString_ml (d := .slb) rfl hm [] [] [] [] (by simp)
    simp only [List.append_nil, StrType.toggle] at hp
    refine apiValue_of (e := e') (a := []) (l := []) ?_
    simp only [valueFuel, St.init, Item.asString, StrType.value]
    have e2 : [34, 34, 34] ++ escTriple mlbEsc s ++ [34, 34, 34] =
        List.replicate 3 StrType.slb.unit ++ (escTriple mlbEsc s ++ List.replicate 3 StrType.slb.unit) := by
      simp [List.replicate_succ, StrType.unit]
    rw [e2]
    have e3 : ∀ x : Str, List.replicate 3 StrType.slb.unit ++ x = 34 :: (34 :: 34 :: x) := fun x => rfl
    rw [e3, parseValue_dq, ← e3, restoring_ok hp]
    rfl
  · -- single-line literal
    simp only [StrType.select, StrType.escapedSequences] at hinv ⊢
    simp only [List.isEmpty_nil, Bool.not_true, Bool.and_false, Bool.false_eq_true, if_false]
    have hc : ∀ c ∈ s, refusedInString .sll c = false ∧ c ≠ 39 := by
      intro c hc
      constructor
      · cases hr : refusedInString .sll c
        · rfl
        · exfalso
          refine no_infix_char hinv hc ?_
          simp only [refusedInString, StrType.isMultiline, Bool.and_eq_true] at hr
          simp [StrType.invalidSequences, mem_ctrlSeqs]
          simp at hr
          simp [hr]
      · rintro rfl
        exact no_infix_char hinv hc (by decide +kernel)
    obtain ⟨e', hp⟩ := parseString_sll s [] [] [] [] hc (by simp)
    refine apiValue_of (e := e') (a := []) (l := []) ?_
    simp only [valueFuel, St.init, Item.asString, StrType.value, List.cons_append, List.nil_append]
    rw [parseValue_sq, restoring_ok hp]
  · -- multi-line literal
    simp only [StrType.select] at hinv
    show apiValue (Item.str .mll s (if (true && !StrType.mll.escapedSequences.isEmpty) = true then
      escapeString s StrType.mll.escapedSequences else s) {}).asString = .ok (.str .mll (withoutFirstNewline s)
      (if (true && !StrType.mll.escapedSequences.isEmpty) = true then
        escapeString s StrType.mll.escapedSequences else s) {})
    have e1 : ¬ (true && !StrType.mll.escapedSequences.isEmpty) = true := by decide
    rw [if_neg e1]
    have h3 : isInfix [39, 39, 39] s = false := by
      rw [List.any_eq_false] at hinv
      simpa using hinv [39, 39, 39] (by decide +kernel)
    have hc : ∀ c ∈ s, refusedInString .mll c = false := by
      intro c hc
      cases hr : refusedInString .mll c
      · rfl
      · exfalso
        refine no_infix_char hinv hc ?_
        simp only [refusedInString, StrType.isMultiline, Bool.and_eq_true] at hr
        simp [StrType.invalidSequences, mem_ctrlSeqs]
        simp at hr
        simp [hr]
    have hm := mlText_mll (withoutFirstNewline s) (fun c hx => hc c (withoutFirstNewline_mem hx))
      (withoutFirstNewline_infix h3)
    obtain ⟨e', hp⟩ := parseString_ml (d := .sll) (s := s) (o := s) rfl hm [] [] [] [] (by simp)
    simp only [List.append_nil, StrType.toggle] at hp
    refine apiValue_of (e := e') (a := []) (l := []) ?_
    simp only [valueFuel, St.init, Item.asString, StrType.value]
    have e2 : [39, 39, 39] ++ s ++ [39, 39, 39] =
        List.replicate 3 StrType.sll.unit ++ (s ++ List.replicate 3 StrType.sll.unit) := by
      simp [List.replicate_succ, StrType.unit]
    rw [e2]
    have e3 : ∀ x : Str, List.replicate 3 StrType.sll.unit ++ x = 39 :: (39 :: 39 :: x) := fun x => rfl
    rw [e3, parseValue_sq, ← e3, restoring_ok hp]
    rfl

theorem withoutFirstNewline_eq {s : Str} : withoutFirstNewline s = s ↔ ¬ StartsWithNewline s := by
  constructor
  · rintro h (⟨r, rfl⟩ | ⟨r, rfl⟩)
    · simp [withoutFirstNewline] at h
    · simp [withoutFirstNewline] at h
      have := congrArg List.length h
      simp at this
      omega
  · intro h
    unfold withoutFirstNewline
    split
    · next r => exact absurd (Or.inl ⟨r, rfl⟩) h
    · next r => exact absurd (Or.inr ⟨r, rfl⟩) h
    · rfl

/-- **C03 (partial).** The full claim is: `value()` of the text of `string(s, literal, multiline)` equals `s`. It
holds exactly when the string is single-line or does not start with a line break; the missing case is false
(`C03_counterexample`). -/
theorem C03_literal_multiline_survive_partial (s : Str) (literal multiline : Bool) (it : Item)
    (h : apiString s literal multiline true = .ok it) :
    (∃ ty o t, apiValue it.asString = .ok (.str ty s o t)) ↔ (multiline = true → ¬ StartsWithNewline s) := by
  obtain ⟨o, -, hv⟩ := C03_exact s literal multiline it h
  rw [hv]
  cases multiline
  · simp
  · simp [withoutFirstNewline_eq]

/-- `string("\nab", multiline=True)` is written `"""` newline `ab"""`, which reads as `ab`. -/
theorem C03_counterexample :
    ∃ it, apiString (t!"\nab") false true true = .ok it ∧
      apiValue it.asString = .ok (.str .mlb (t!"ab") (t!"\nab") {}) := by
  obtain ⟨it, hit⟩ : ∃ it, apiString (t!"\nab") false true true = .ok it := ⟨_, rfl⟩
  obtain ⟨o, ho, h⟩ := C03_exact _ _ _ it hit
  refine ⟨it, hit, ?_⟩
  have : o = t!"\nab" := by
    have h1 : apiString (t!"\nab") false true true = .ok (.str .mlb (t!"\nab") (t!"\nab") {}) := by
      have : escapeString (t!"\nab") StrType.mlb.escapedSequences = t!"\nab" := by decide +kernel
      simp only [apiString, fromRaw, StrType.select]
      rw [this]
      simp [StrType.invalidSequences]
    rw [h1] at hit
    injection hit with hit
    rw [← hit] at ho
    simp [StrType.select] at ho
    exact ho.symm
  rw [h, this]
  rfl

/-- The hypothesis of C03 is met by strings with quotes and line breaks inside. -/
example : (apiString (t!"it's\n''x''") true true true).toOption.isSome = true ∧
    (apiString (t!"say \"\"\"hi\"\"\"\n\\") false true true).toOption.isSome = true := by decide +kernel

/-! ## C04 -/

theorem hexDigit_safe : ∀ n < 16, 32 ≤ hexDigit n ∧ hexDigit n ≠ 127 ∧ hexDigit n ≠ 34 ∧ hexDigit n ≠ 92 := by
  decide

theorem not_control_of {c : Nat} (h1 : 32 ≤ c) (h2 : c ≠ 127) : ¬ Control c := by
  unfold Control; omega

theorem escOf_safe {c : Chr} (h : slbEsc c = true) (r : Str) (hr : SafeBetweenQuotes r) :
    SafeBetweenQuotes (escOf [c] ++ r) := by
  have hall : ∀ c < 128, slbEsc c = true → ∃ x y, escOf [c] = 92 :: x :: y ∧ 32 ≤ x ∧ x ≠ 127 ∧
      ∀ z ∈ y, 32 ≤ z ∧ z ≠ 127 ∧ z ≠ 34 ∧ z ≠ 92 := by
    have : ∀ c < 128, slbEsc c = true → (match escOf [c] with
      | 92 :: x :: y => decide (32 ≤ x) && decide (x ≠ 127) &&
          y.all fun z => decide (32 ≤ z) && decide (z ≠ 127) && decide (z ≠ 34) && decide (z ≠ 92)
      | _ => false) = true := by decide +kernel
    intro c hc h
    have := this c hc h
    split at this
    · next x y heq =>
      refine ⟨x, y, heq, ?_⟩
      simp [List.all_eq_true] at this
      exact ⟨this.1.1, this.1.2, fun z hz => by have := this.2 z hz; omega⟩
    · simp at this
  obtain ⟨x, y, hx, h1, h2, hy⟩ := hall c (slbEsc_lt h) h
  rw [hx]
  simp only [List.cons_append, SafeBetweenQuotes]
  refine ⟨not_control_of h1 h2, ?_⟩
  clear hx
  induction y with
  | nil => exact hr
  | cons z y ih =>
    obtain ⟨z1, z2, z3, z4⟩ := hy z (by simp)
    rw [List.cons_append, SafeBetweenQuotes.eq_def]
    split
    · simp_all
    · next heq =>
      have := (List.cons.inj heq).1
      omega
    · next heq =>
      obtain ⟨rfl, rfl⟩ := List.cons.inj heq
      exact ⟨z3, z4, not_control_of z1 z2, ih fun w hw => hy w (by simp [hw])⟩

theorem escEach_safe (s : Str) : SafeBetweenQuotes (escEach slbEsc s) := by
  induction s with
  | nil => trivial
  | cons c s ih =>
    rw [escEach_cons]
    cases hE : slbEsc c with
    | true => exact escOf_safe hE _ ih
    | false =>
      simp only [Bool.false_eq_true, if_false, List.singleton_append]
      simp only [slbEsc, isCtrl, Bool.or_eq_false_iff, decide_eq_false_iff_not, beq_eq_false_iff_ne] at hE
      rw [SafeBetweenQuotes.eq_def]
      split
      · simp_all
      · next heq =>
        have := (List.cons.inj heq).1
        omega
      · next heq =>
        obtain ⟨rfl, rfl⟩ := List.cons.inj heq
        exact ⟨hE.2, hE.1.2, not_control_of (by omega) hE.1.1.2, ih⟩

/-- no character of a safe text is a control character -/
theorem safe_no_control {s : Str} (h : SafeBetweenQuotes s) : ∀ c ∈ s, ¬ Control c := by
  fun_induction SafeBetweenQuotes s with
  | case1 => simp
  | case2 c r ih =>
    intro x hx
    simp only [List.mem_cons] at hx
    rcases hx with rfl | rfl | hx
    · unfold Control; omega
    · exact h.1
    · exact ih h.2 x hx
  | case3 c r _ ih =>
    intro x hx
    rcases List.mem_cons.1 hx with rfl | hx
    · exact h.2.2.1
    · exact ih h.2.2.2 x hx

/-- **C04.** The text of a default string item is a quote, a body and a quote; every quote and backslash of the
body belongs to an escape, and no character of it is a control character (in particular no line break). -/
theorem C04_escaped_text_is_safe (s : Str) :
    ∃ body, (stringItem s).asString = 34 :: (body ++ [34]) ∧ SafeBetweenQuotes body ∧ ∀ c ∈ body, ¬ Control c := by
  refine ⟨escEach slbEsc s, ?_, escEach_safe s, safe_no_control (escEach_safe s)⟩
  simp [stringItem, escapeString_slb, Item.asString, StrType.value]

/-- the specification does reject unsafe texts -/
example : ¬ SafeBetweenQuotes (t!"a\"b") ∧ ¬ SafeBetweenQuotes (t!"a\\") ∧ ¬ SafeBetweenQuotes (t!"a\nb") := by
  simp [SafeBetweenQuotes, Control]

theorem perm_contains {l l' : List Str} (h : l'.Perm l) (q : Str) : l'.contains q = l.contains q := by
  apply contains_eq_of_iff
  rw [h.mem_iff]
  simp

/-- **C04 (order).** The sequences to escape form a Python `set`, whose iteration order is arbitrary: the text
does not depend on it. -/
theorem C04_order_irrelevant (s : Str) (ty : StrType) (seqs : List Str) (h : seqs.Perm ty.escapedSequences) :
    escapeString s seqs = escapeString s ty.escapedSequences := by
  cases ty
  · rw [escapeString_each s seqs (h.nodup_iff.2 slb_nodup) (by
      intro q hq
      have h2 : ∀ q ∈ StrType.slb.escapedSequences, q.length = 1 := by decide +kernel
      exact h2 q (h.mem_iff.1 hq)), escapeString_slb]
    simp only [perm_contains h, slb_contains]
  · rw [escapeString_triple s seqs (h.nodup_iff.2 mlb_nodup) (by
      intro q hq
      have h2 : ∀ q ∈ StrType.mlb.escapedSequences, q.length = 1 ∨ q = [34, 34, 34] := by decide +kernel
      exact h2 q (h.mem_iff.1 hq)) (by
      rw [h.mem_iff]; decide +kernel) (by rw [h.mem_iff]; decide +kernel), escapeString_mlb]
    simp only [perm_contains h, mlb_contains]
  · have : seqs = [] := List.Perm.eq_nil h
    rw [this]; rfl
  · have : seqs = [] := List.Perm.eq_nil h
    rw [this]; rfl

/-- a permuted set: the reversed one -/
example : StrType.mlb.escapedSequences.reverse.Perm StrType.mlb.escapedSequences := List.reverse_perm _

/-! ## C05 -/

/-- **C05 (one name).** For every string `k`, the text of `key(k)` followed by an equals sign is read by the key
parser as exactly one part, named `k`; the parser stops at the equals sign. -/
theorem C05_key_survives (k tail : Str) :
    ∃ sk st, parseKeyHere (.init ((apiKey k).asString ++ 61 :: tail)) = .ok (.single sk) st ∧
      sk.key = k ∧ st.rest = 61 :: tail := by
  obtain ⟨sk, e', hk, h⟩ := parseKey_part k 61 (Or.inr rfl) ((mkKey k).orig ++ 61 :: tail).length tail [] [] []
  refine ⟨sk, ⟨61 :: tail, e', [], []⟩, ?_, hk, rfl⟩
  simp only [parseKeyHere, getSt_bind, apiKey, Key.asString, St.init]
  simpa using h

/-- **C05 (list of names).** The same for `key([k1, ..., kn])`: the parts read back are those names, in order. -/
theorem C05_dotted_key_survives (ks : List Str) (hne : ks ≠ []) (tail : Str) :
    ∃ key st, parseKeyHere (.init ((apiDottedKey ks).asString ++ 61 :: tail)) = .ok key st ∧
      key.parts.map SKey.key = ks ∧ st.rest = 61 :: tail := by
  have hlen : ks.length ≤ (joinDot (ks.map fun k => (mkKey k).orig) ++ 61 :: tail).length + 1 := by
    have : ∀ ks : List Str, ks.length ≤ (joinDot (ks.map fun k => (mkKey k).orig)).length + 1 := by
      intro ks
      induction ks with
      | nil => simp
      | cons k ks ih =>
        cases ks with
        | nil => simp
        | cons k2 ks =>
          simp only [List.map_cons, joinDot, List.length_append, List.length_cons] at ih ⊢
          omega
    have := this ks
    simp
    omega
  obtain ⟨key, e', hk, h⟩ := parseKey_dotted ks hne _ tail [] [] [] hlen
  exact ⟨key, ⟨61 :: tail, e', [], []⟩, by
    simpa [parseKeyHere, apiDottedKey, Key.asString, St.init] using h, hk, rfl⟩

example : (apiKey (t!"bare_key-1")).asString = t!"bare_key-1" ∧ (apiKey (t!"a.b \"")).asString = t!"\"a.b \\\"\"" ∧
    (apiKey []).asString = t!"\"\"" ∧ (apiDottedKey [t!"a", t!"b.c", t!""]).asString = t!"a.\"b.c\".\"\"" := by
  decide +kernel

end Tomlkit
