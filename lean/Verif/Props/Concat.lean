import Verif.Spec.Concat
import Verif.Proofs.TomlStrings
/-! # C30 for multi-line strings -/
namespace Tomlkit
open _root_.Spec Tomlkit.Spec

theorem mlBasic_any {t w : Str} (h : MultilineBasic 0 t w) (ht : t.head? ≠ some 34) (k : Nat) : MultilineBasic k t w := by
  cases h with
  | nil => exact .nil k
  | char _ c o v h1 h2 h3 h4 => exact .char k c o v h1 h2 h3 h4
  | newline _ nl o v h1 h2 => exact .newline k nl o v h1 h2
  | quote _ o v h1 h2 => exact absurd rfl ht
  | esc _ x c o v h1 h2 => exact .esc k x c o v h1 h2
  | uni4 _ ds c o v h1 h2 => exact .uni4 k ds c o v h1 h2
  | uni8 _ ds c o v h1 h2 => exact .uni8 k ds c o v h1 h2
  | fold _ b nl u o _ h1 h2 h3 h4 h5 => exact .fold k b nl u o _ h1 h2 h3 h4 h5

theorem getLast_tail {q : Nat} {x o : Str} (h : (x ++ o).getLast? ≠ some q) (ho : o ≠ []) : o.getLast? ≠ some q := by
  rw [List.getLast?_append] at h
  intro h'
  rw [h'] at h
  exact h rfl

/-- the seam of two texts of multi-line basic strings -/
theorem mlBasic_append {t w : Str} (ht : MultilineBasic 0 t w) {k : Nat} {o v : Str} (h : MultilineBasic k o v) :
    (t.head? ≠ some 34 ∨ (o = [] → k = 0) ∧ o.getLast? ≠ some 34) →
    (¬ StartsBlank t ∨ ¬ ∃ p b nl w, MultilineBasic k p v ∧ Blanks b ∧ Newline nl ∧ BlanksAndNewlines w ∧ o = p ++ 92 :: (b ++ (nl ++ w))) →
    MultilineBasic k (o ++ t) (v ++ w) := by
  induction h with
  | nil k =>
    intro hq _
    rcases hq with hq | ⟨hq, _⟩
    · exact mlBasic_any ht hq k
    · rw [hq rfl]; exact ht
  | char k c o v h1 h2 h3 h4 ih =>
    intro hq hf
    refine .char k c _ _ h1 h2 h3 (ih ?_ ?_)
    · exact hq.imp id fun ⟨_, h⟩ => ⟨fun _ => rfl, fun ho => by
        by_cases hn : o = []
        · rw [hn] at ho; cases ho
        · exact getLast_tail (x := [c]) h hn ho⟩
    · exact hf.imp id fun hf ⟨p, b, nl, w, g1, g2, g3, g4, g5⟩ => hf ⟨c :: p, b, nl, w, .char k c p v h1 h2 h3 g1, g2, g3, g4, by rw [g5]; rfl⟩
  | newline k nl o v h1 h4 ih =>
    intro hq hf
    rw [List.append_assoc, List.append_assoc]
    refine .newline k nl _ _ h1 (ih ?_ ?_)
    · exact hq.imp id fun ⟨_, h⟩ => ⟨fun _ => rfl, fun ho => by
        by_cases hn : o = []
        · rw [hn] at ho; cases ho
        · exact getLast_tail h hn ho⟩
    · exact hf.imp id fun hf ⟨p, b, nl', w, g1, g2, g3, g4, g5⟩ => hf ⟨nl ++ p, b, nl', w, .newline k nl p v h1 g1, g2, g3, g4, by rw [g5, List.append_assoc]⟩
  | quote k o v h1 h4 ih =>
    intro hq hf
    refine .quote k _ _ h1 (ih ?_ ?_)
    · exact hq.imp id fun ⟨_, h⟩ => ⟨fun ho => by rw [ho] at h; exact absurd rfl h, fun ho => by
        by_cases hn : o = []
        · rw [hn] at ho; cases ho
        · exact getLast_tail (x := [34]) h hn ho⟩
    · exact hf.imp id fun hf ⟨p, b, nl', w, g1, g2, g3, g4, g5⟩ => hf ⟨34 :: p, b, nl', w, .quote k p v h1 g1, g2, g3, g4, by rw [g5]; rfl⟩
  | esc k x c o v h1 h4 ih =>
    intro hq hf
    refine .esc k x c _ _ h1 (ih ?_ ?_)
    · exact hq.imp id fun ⟨_, h⟩ => ⟨fun _ => rfl, fun ho => by
        by_cases hn : o = []
        · rw [hn] at ho; cases ho
        · exact getLast_tail (x := [92, x]) h hn ho⟩
    · exact hf.imp id fun hf ⟨p, b, nl', w, g1, g2, g3, g4, g5⟩ => hf ⟨92 :: x :: p, b, nl', w, .esc k x c p v h1 g1, g2, g3, g4, by rw [g5]; rfl⟩
  | uni4 k ds c o v h1 h4 ih =>
    intro hq hf
    rw [show (92 :: 117 :: (ds ++ o)) ++ t = 92 :: 117 :: (ds ++ (o ++ t)) by simp]
    refine .uni4 k ds c _ _ h1 (ih ?_ ?_)
    · exact hq.imp id fun ⟨_, h⟩ => ⟨fun _ => rfl, fun ho => by
        by_cases hn : o = []
        · rw [hn] at ho; cases ho
        · exact getLast_tail (x := 92 :: 117 :: ds) h hn ho⟩
    · exact hf.imp id fun hf ⟨p, b, nl', w, g1, g2, g3, g4, g5⟩ => hf ⟨92 :: 117 :: (ds ++ p), b, nl', w, .uni4 k ds c p v h1 g1, g2, g3, g4, by rw [g5]; simp⟩
  | uni8 k ds c o v h1 h4 ih =>
    intro hq hf
    rw [show (92 :: 85 :: (ds ++ o)) ++ t = 92 :: 85 :: (ds ++ (o ++ t)) by simp]
    refine .uni8 k ds c _ _ h1 (ih ?_ ?_)
    · exact hq.imp id fun ⟨_, h⟩ => ⟨fun _ => rfl, fun ho => by
        by_cases hn : o = []
        · rw [hn] at ho; cases ho
        · exact getLast_tail (x := 92 :: 85 :: ds) h hn ho⟩
    · exact hf.imp id fun hf ⟨p, b, nl', w, g1, g2, g3, g4, g5⟩ => hf ⟨92 :: 85 :: (ds ++ p), b, nl', w, .uni8 k ds c p v h1 g1, g2, g3, g4, by rw [g5]; simp⟩
  | fold k b nl u o v h1 h2 h3 h5 h4 ih =>
    intro hq hf
    rw [show (92 :: (b ++ (nl ++ (u ++ o)))) ++ t = 92 :: (b ++ (nl ++ (u ++ (o ++ t)))) by simp]
    refine .fold k b nl u _ _ h1 h2 h3 ?_ (ih ?_ ?_)
    · intro c hc
      cases o with
      | cons y r => exact h5 c hc
      | nil =>
        have hv : v = [] := by
          generalize ho : ([] : Str) = o at h4
          cases h4 with
          | nil => rfl
          | newline _ nl o v h => rcases h with rfl | rfl <;> cases ho
          | _ => cases ho
        rcases hf with hf | hf
        · refine ⟨fun h => hf ⟨c, hc, ?_⟩, fun h => hf ⟨c, hc, ?_⟩, fun h => hf ⟨c, hc, ?_⟩, fun h => hf ⟨c, hc, ?_⟩⟩ <;> simp [h]
        · exact absurd ⟨[], b, nl, u, hv ▸ .nil k, h1, h2, h3, by simp⟩ hf
    · exact hq.imp id fun ⟨_, h⟩ => ⟨fun _ => rfl, fun ho => by
        by_cases hn : o = []
        · rw [hn] at ho; cases ho
        · exact getLast_tail (x := 92 :: (b ++ (nl ++ u))) (by simpa using h) hn ho⟩
    · refine hf.imp id fun hf ⟨p, b', nl', w, g1, g2, g3, g4, g5⟩ => ?_
      by_cases hp : p = [] 
      · subst hp
        exact absurd g5 (fun g5 => hf ⟨92 :: (b ++ (nl ++ (u ++ []))), b', nl', w, .fold k b nl u [] v h1 h2 h3 (by simp) g1, g2, g3, g4, by rw [g5]; simp⟩)
      · refine hf ⟨92 :: (b ++ (nl ++ (u ++ p))), b', nl', w, .fold k b nl u p v h1 h2 h3 ?_ g1, g2, g3, g4, by rw [g5]; simp⟩
        intro c hc
        obtain ⟨y, r, rfl⟩ := List.exists_cons_of_ne_nil hp
        exact h5 c (by rw [g5]; exact hc)

theorem mlLiteral_any {t : Str} (h : MultilineLiteral 0 t) (ht : t.head? ≠ some 39) (k : Nat) : MultilineLiteral k t := by
  cases h with
  | nil => exact .nil k
  | char _ c o h1 h2 h3 => exact .char k c o h1 h2 h3
  | newline _ nl o h1 h2 => exact .newline k nl o h1 h2
  | quote _ o h1 h2 => exact absurd rfl ht

theorem mlLiteral_append {t : Str} (ht : MultilineLiteral 0 t) {k : Nat} {o : Str} (h : MultilineLiteral k o) :
    (t.head? ≠ some 39 ∨ (o = [] → k = 0) ∧ o.getLast? ≠ some 39) → MultilineLiteral k (o ++ t) := by
  induction h with
  | nil k =>
    intro hq
    rcases hq with hq | ⟨hq, _⟩
    · exact mlLiteral_any ht hq k
    · rw [hq rfl]; exact ht
  | char k c o h1 h2 h3 ih =>
    intro hq
    refine .char k c _ h1 h2 (ih (hq.imp id fun ⟨_, h⟩ => ⟨fun _ => rfl, fun ho => ?_⟩))
    by_cases hn : o = []
    · rw [hn] at ho; cases ho
    · exact getLast_tail (x := [c]) h hn ho
  | newline k nl o h1 h3 ih =>
    intro hq
    rw [List.append_assoc]
    refine .newline k nl _ h1 (ih (hq.imp id fun ⟨_, h⟩ => ⟨fun _ => rfl, fun ho => ?_⟩))
    by_cases hn : o = []
    · rw [hn] at ho; cases ho
    · exact getLast_tail h hn ho
  | quote k o h1 h3 ih =>
    intro hq
    refine .quote k _ h1 (ih (hq.imp id fun ⟨_, h⟩ => ⟨fun ho => by rw [ho] at h; exact absurd rfl h, fun ho => ?_⟩))
    by_cases hn : o = []
    · rw [hn] at ho; cases ho
    · exact getLast_tail (x := [39]) h hn ho

theorem quotes_or {q : Nat} {o t : Str} (h : NoQuotesMeet q o t) : t.head? ≠ some q ∨ (o = [] → 0 = 0) ∧ o.getLast? ≠ some q := by
  by_cases h1 : t.head? = some q
  · exact .inr ⟨fun _ => rfl, fun h2 => h ⟨h2, h1⟩⟩
  · exact .inl h1

/-- the line break in front stays where it is -/
theorem first_newline {nl o t : Str} (hn : nl = [] ∧ ¬ StartsWithNewline o ∨ Newline nl)
    (ho : nl ++ o = [] → ¬ StartsWithNewline t) (hcr : ¬ ∃ r, o = 13 :: r ∧ r.head? ≠ some 10) :
    nl = [] ∧ ¬ StartsWithNewline (o ++ t) ∨ Newline nl := by
  refine hn.imp (fun ⟨h1, h2⟩ => ⟨h1, ?_⟩) id
  subst h1
  rintro (⟨r, hr⟩ | ⟨r, hr⟩)
  · rcases o with _ | ⟨y, o⟩
    · exact ho rfl (.inl ⟨r, hr⟩)
    · cases hr; exact h2 (.inl ⟨_, rfl⟩)
  · rcases o with _ | ⟨y, _ | ⟨z, o⟩⟩
    · exact ho rfl (.inr ⟨r, hr⟩)
    · cases hr; exact hcr ⟨[], rfl, by simp⟩
    · cases hr; exact h2 (.inr ⟨_, rfl⟩)

theorem no_lone_cr {k : Nat} {o v : Str} (h : MultilineBasic k o v) : ¬ ∃ r, o = 13 :: r ∧ r.head? ≠ some 10 := by
  rintro ⟨r, hr, hh⟩
  cases h with
  | char _ c o v h1 => cases hr; exact h1 ⟨by simp [Control], by decide⟩
  | newline _ nl o v h => rcases h with rfl | rfl <;> cases hr; exact hh rfl
  | _ => cases hr

theorem no_lone_cr' {k : Nat} {o : Str} (h : MultilineLiteral k o) : ¬ ∃ r, o = 13 :: r ∧ r.head? ≠ some 10 := by
  rintro ⟨r, hr, hh⟩
  cases h with
  | char _ c o h1 => cases hr; exact h1 ⟨by simp [Control], by decide⟩
  | newline _ nl o h => rcases h with rfl | rfl <;> cases hr; exact hh rfl
  | _ => cases hr

theorem api_mlBasic {nl o v : Str} (hnl : nl = [] ∧ ¬ StartsWithNewline o ∨ Newline nl) (h : MultilineBasic 0 o v) :
    apiValue ([34, 34, 34] ++ ((nl ++ o) ++ [34, 34, 34])) = .ok (.str .mlb v (nl ++ o) {}) := by
  obtain ⟨e', h⟩ := parseString_mlBody (d := .slb) rfl hnl (runs_body (basic_runs h (by omega))) [] [] [] [] (by simp)
  obtain ⟨n, hn⟩ : ∃ n, valueFuel ([34, 34, 34] ++ ((nl ++ o) ++ [34, 34, 34])) = n + 1 := ⟨valueFuel ([34, 34, 34] ++ ((nl ++ o) ++ [34, 34, 34])) - 1, by unfold valueFuel; omega⟩
  apply apiValue_of (e := e') (a := []) (l := [])
  rw [hn]
  have := parseValue_dq n ([34, 34] ++ ((nl ++ o) ++ [34, 34, 34])) [] [] []
  refine this.trans (restoring_ok ?_)
  rw [List.append_assoc nl]
  exact h

theorem api_mlLiteral {nl o : Str} (hnl : nl = [] ∧ ¬ StartsWithNewline o ∨ Newline nl) (h : MultilineLiteral 0 o) :
    apiValue ([39, 39, 39] ++ ((nl ++ o) ++ [39, 39, 39])) = .ok (.str .mll o (nl ++ o) {}) := by
  obtain ⟨e', h⟩ := parseString_mlBody (d := .sll) rfl hnl (runs_body (literal_runs h (by omega))) [] [] [] [] (by simp)
  obtain ⟨n, hn⟩ : ∃ n, valueFuel ([39, 39, 39] ++ ((nl ++ o) ++ [39, 39, 39])) = n + 1 := ⟨valueFuel ([39, 39, 39] ++ ((nl ++ o) ++ [39, 39, 39])) - 1, by unfold valueFuel; omega⟩
  apply apiValue_of (e := e') (a := []) (l := [])
  rw [hn]
  have := parseValue_sq n ([39, 39] ++ ((nl ++ o) ++ [39, 39, 39])) [] [] []
  refine this.trans (restoring_ok ?_)
  rw [List.append_assoc nl]
  exact h

/-- **C30, two multi-line basic string items (partial).** The second text has no line break after its opening delimiter, and the
texts do not disturb each other where they meet: then the text of the sum denotes the concatenation. -/
theorem C30_multiline_items_partial (nl o v o' v' : Str) (tr : Trivia) (hn : nl = [] ∧ ¬ StartsWithNewline o ∨ Newline nl)
    (h : MultilineBasic 0 o v) (h' : MultilineBasic 0 o' v') (hs : ¬ StartsWithNewline o')
    (hq : NoQuotesMeet 34 o o') (hf : StartsBlank o' → ¬ EndsFolded o v) :
    strAddItem .mlb v (nl ++ o) tr v' o' = .str .mlb (v ++ v') (nl ++ o ++ o') tr ∧
    apiValue (strAddItem .mlb v (nl ++ o) tr v' o').asString = .ok (.str .mlb (v ++ v') (nl ++ o ++ o') {}) := by
  refine ⟨rfl, ?_⟩
  have := api_mlBasic (first_newline hn (fun _ => hs) (no_lone_cr h)) (mlBasic_append h' h (quotes_or hq) (by
    by_cases hb : StartsBlank o'
    · exact .inr (hf hb)
    · exact .inl hb))
  rw [← List.append_assoc nl] at this
  exact this

/-- **C30, a multi-line basic string item and a plain `str` (partial).** If `t` holds no backslash, no control character except tab and
line breaks and no three quotes in a row (it denotes itself), and does not disturb the end of the text of the item, then the text of
`s + t` denotes the concatenation. -/
theorem C30_multiline_partial (nl o v t : Str) (tr : Trivia) (hn : nl = [] ∧ ¬ StartsWithNewline o ∨ Newline nl)
    (h : MultilineBasic 0 o v) (h' : MultilineBasic 0 t t) (hs : nl ++ o = [] → ¬ StartsWithNewline t)
    (hq : NoQuotesMeet 34 o t) (hf : StartsBlank t → ¬ EndsFolded o v) :
    strAddPlain .mlb v (nl ++ o) tr t = .str .mlb (v ++ t) (nl ++ o ++ t) tr ∧
    apiValue (strAddPlain .mlb v (nl ++ o) tr t).asString = .ok (.str .mlb (v ++ t) (nl ++ o ++ t) {}) := by
  refine ⟨rfl, ?_⟩
  have := api_mlBasic (first_newline hn hs (no_lone_cr h)) (mlBasic_append h' h (quotes_or hq) (by
    by_cases hb : StartsBlank t
    · exact .inr (hf hb)
    · exact .inl hb))
  rw [← List.append_assoc nl] at this
  exact this

/-- **C30, a multi-line literal string item and a plain `str` (partial).** -/
theorem C30_multiline_literal_partial (nl o t : Str) (tr : Trivia) (hn : nl = [] ∧ ¬ StartsWithNewline o ∨ Newline nl)
    (h : MultilineLiteral 0 o) (h' : MultilineLiteral 0 t) (hs : nl ++ o = [] → ¬ StartsWithNewline t) (hq : NoQuotesMeet 39 o t) :
    strAddPlain .mll o (nl ++ o) tr t = .str .mll (o ++ t) (nl ++ o ++ t) tr ∧
    apiValue (strAddPlain .mll o (nl ++ o) tr t).asString = .ok (.str .mll (o ++ t) (nl ++ o ++ t) {}) := by
  refine ⟨rfl, ?_⟩
  have := api_mlLiteral (first_newline hn hs (no_lone_cr' h)) (mlLiteral_append h' h (quotes_or hq))
  rw [← List.append_assoc nl] at this
  exact this

/-- Each condition is needed. Two items with line breaks after the opening delimiter: `a` + `b` reads back as `a⏎b`. The empty string
and a line break: reads back as the empty string. Two quotes and one quote: no value at all. A backslash at the end of the line of the
item, and a text with a blank in front: the blank is lost. -/
theorem C30_multiline_counterexamples :
    apiValue (strAddItem .mlb (t!"a") (t!"\na") {} (t!"b") (t!"\nb")).asString = .ok (.str .mlb (t!"a\nb") (t!"\na\nb") {}) ∧
    apiValue (strAddPlain .mlb [] [] {} (t!"\n")).asString = .ok (.str .mlb [] (t!"\n") {}) ∧
    (apiValue (strAddPlain .mlb (t!"a\"\"") (t!"a\"\"") {} (t!"\"b")).asString).toOption.isNone = true ∧
    apiValue (strAddPlain .mlb (t!"a") (t!"a\\\n") {} (t!" b")).asString = .ok (.str .mlb (t!"ab") (t!"a\\\n b") {}) := by
  refine ⟨by rfl, by rfl, by rfl, by rfl⟩

/-- the hypotheses are met: a text with a folded line, an escape and a quote, continued by a text with a quote and a line break -/
example : MultilineBasic 0 (t!"a\\\n  b\\t\"") (t!"ab\t\"") ∧ MultilineBasic 0 (t!"c\"\nd") (t!"c\"\nd") ∧
    NoQuotesMeet 34 (t!"a\\\n  b\\t\"") (t!"c\"\nd") ∧ ¬ StartsBlank (t!"c\"\nd") ∧ ¬ StartsWithNewline (t!"a\\\n  b\\t\"") := by
  refine ⟨?_, ?_, ?_, ?_, ?_⟩
  · refine .char _ 97 _ _ (by simp [NotControl, Control]) (by decide) (by decide) ?_
    refine .fold _ [] [10] [32, 32] (t!"b\\t\"") _ (by simp [Blanks]) (.inl rfl) (.blank _ _ (.inl rfl) (.blank _ _ (.inl rfl) .nil)) (by simp) ?_
    refine .char _ 98 _ _ (by simp [NotControl, Control]) (by decide) (by decide) ?_
    exact .esc _ 116 9 _ _ (by decide) (.quote _ _ _ (by decide) (.nil _))
  · refine .char _ 99 _ _ (by simp [NotControl, Control]) (by decide) (by decide) ?_
    refine .quote _ _ _ (by decide) (.newline _ [10] _ _ (.inl rfl) ?_)
    exact .char _ 100 _ _ (by simp [NotControl, Control]) (by decide) (by decide) (.nil _)
  · rintro ⟨_, h⟩; cases h
  · rintro ⟨c, h, h'⟩; cases h; simp at h'
  · rintro (⟨r, h⟩ | ⟨r, h⟩) <;> cases h

end Tomlkit
