import Verif.Proofs.ReadTomlDoc
import Verif.Props.Readback
/-!
# C41: the texts of TOML are accepted, and mean what TOML says
-/
namespace Tomlkit
open _root_.Spec Tomlkit.Spec

/-- C41, values: `value()` accepts every value of TOML, and the item it makes unwraps to the Python value the text denotes. -/
theorem C41_values (s : Str) (v : PyVal) (h : ValueText s v) :
    ∃ i, apiValue s = .ok i ∧ ∃ n0, ∀ n ≥ n0, i.unwrap n = .ok v := by
  obtain ⟨i, h1, h2⟩ := apiValue_reads (reads_text h)
  exact ⟨i, h1, means_unwrap h2⟩

/-- so no text denotes two values -/
theorem C41_unambiguous (s : Str) (v w : PyVal) (hv : ValueText s v) (hw : ValueText s w) : v = w := by
  obtain ⟨i, h1, h2⟩ := apiValue_reads (reads_text hv)
  obtain ⟨j, h3, h4⟩ := apiValue_reads (reads_text hw)
  rw [h1] at h3
  cases h3
  exact means_unique h2 h4

/-- C41, documents: `parse` accepts every document whose tables are not entered twice, and the document unwraps to the dictionary the
text denotes, with the keys in this order. Keys may be dotted, in lines, in inline tables and in headers. -/
theorem C41_documents_partial (text : Str) (l : List PyPair) (h : DocumentText text l) :
    ∃ doc, parse text = .ok doc ∧ ∃ n0, ∀ n ≥ n0, doc.unwrap n = .ok l := by
  obtain ⟨c, g1, g2, g3, _⟩ := document_reads h
  exact ⟨c, g1, meansIn_unwrap g2 g3⟩

/-- `0E5` is a float of TOML and is refused; `0e5` is accepted -/
theorem C41_counterexample_zero_exponent :
    (apiValue (t!"0E5")).toOption.isNone = true ∧ (apiValue (t!"0e5")).toOption.isSome = true ∧ (apiValue (t!"1E5")).toOption.isSome = true :=
  ⟨by decide +kernel, by decide +kernel, by decide +kernel⟩

/-! ## Examples: the hypotheses are met -/

theorem blanks_one : Blanks [32] := by intro c hc; simp at hc; exact .inl hc
theorem blanks_two : Blanks [32, 32] := by intro c hc; simp at hc; exact .inl hc
theorem blanks_none : Blanks [] := by intro c hc; cases hc

theorem notControl_of {c : Nat} (h : 32 ≤ c ∧ c < 127) : NotControl c := by
  rintro ⟨h1, _⟩
  unfold Control at h1
  omega

theorem bareLetter (c : Nat) (hc : 97 ≤ c ∧ c ≤ 122) : KeyText [c] [c] :=
  .bare _ (by simp) (by intro x hx; simp at hx; subst hx; unfold BareChar; omega)

theorem dottedLetter (c : Nat) (hc : 97 ≤ c ∧ c ≤ 122) : DottedText [c] [[c]] := .one [] [c] [c] [] blanks_none (bareLetter c hc) blanks_none

/-- `a.b`, for any letters -/
theorem dottedLetters (a b : Nat) (ha : 97 ≤ a ∧ a ≤ 122) (hb : 97 ≤ b ∧ b ≤ 122) : DottedText [a, 46, b] [[a], [b]] :=
  .more [] [a] [a] [] [b] _ blanks_none (bareLetter a ha) blanks_none (dottedLetter b hb)

/-- `[1_0, # c⏎ {x.y="\\t"},⏎]` is a value -/
theorem C41_example_value : ValueText (t!"[1_0, # c\n {x.y=\"\\t\"},\n]") (.list [.int 10, .dict [.mk (t!"x") (.dict [.mk (t!"y") (.str [9])])]]) := by
  have h1 : ValueText (t!"1_0") (.int 10) := .int _ _ (.decimal [t!"1", t!"0"]
    ⟨by simp, by simp, by intro g hg c hc; simp at hg; rcases hg with rfl | rfl <;> simp at hc <;> subst hc <;> exact ⟨_, rfl, by decide⟩⟩
    (by unfold NoLeadingZero; decide))
  have h2 : ValueText (t!"\"\\t\"") (.str [9]) := .str _ _ (.basic (t!"\\t") [9] (.esc 116 9 [] [] (by decide) .nil))
  have h3 : ValueText (t!"{x.y=\"\\t\"}") (.dict [.mk (t!"x") (.dict [.mk (t!"y") (.str [9])])]) := .table _ [([t!"x", t!"y"], .str [9])] _
    (.last (t!"x.y") _ [] (t!"\"\\t\"") (.str [9]) [] (dottedLetters 120 121 (by omega) (by omega)) blanks_none h2 blanks_none)
    (.table (t!"x") [t!"y"] _ [] _ [] (by simp) (.value (t!"y") _ [] [] (by simp) .nil) .nil)
  exact .array _ _ (.elem (t!"1_0") _ (t!", # c\n {x.y=\"\\t\"},\n]") _ h1 (.comma _ _ (.blank _ 32 _ _ (.inl rfl)
    (.comment _ (t!" c") (t!"\n") (t!" {x.y=\"\\t\"},\n]") _ (by intro c hc; simp at hc; rcases hc with rfl | rfl <;> exact notControl_of (by omega)) (.inl rfl)
      (.blank _ 32 _ _ (.inl rfl) (.elem (t!"{x.y=\"\\t\"}") _ (t!",\n]") _ h3 (.comma _ _ (.newline _ [10] [93] _ (.inl rfl) (.close _)))))))))

/-- `k.m = true⏎j = false⏎k.n = true⏎[a]⏎  [[a.b]]⏎"x" = false # c⏎ [[a.b]]` is a document: the dotted keys make one table `k`, headers may
be indented -/
theorem C41_example_document : DocumentText (t!"k.m = true\nj = false\nk.n = true\n[a]\n  [[a.b]]\n\"x\" = false # c\n [[a.b]]")
    [.mk (t!"k") (.dict [.mk (t!"m") (.bool true), .mk (t!"n") (.bool true)]), .mk (t!"j") (.bool false),
     .mk (t!"a") (.dict [.mk (t!"b") (.list [.dict [.mk (t!"x") (.bool false)], .dict []])])] := by
  have ab : DottedText (t!"a.b") [t!"a", t!"b"] := dottedLetters 97 98 (by omega) (by omega)
  have a1 : DottedText (t!"a") [t!"a"] := dottedLetter 97 (by omega)
  have km : DottedText (t!"k.m ") [t!"k", t!"m"] := .more [] (t!"k") (t!"k") [] (t!"m ") _ blanks_none (bareLetter 107 (by omega)) blanks_none
    (.one [] (t!"m") (t!"m") [32] blanks_none (bareLetter 109 (by omega)) blanks_one)
  have kn : DottedText (t!"k.n ") [t!"k", t!"n"] := .more [] (t!"k") (t!"k") [] (t!"n ") _ blanks_none (bareLetter 107 (by omega)) blanks_none
    (.one [] (t!"n") (t!"n") [32] blanks_none (bareLetter 110 (by omega)) blanks_one)
  have jj : DottedText (t!"j ") [t!"j"] := .one [] (t!"j") (t!"j") [32] blanks_none (bareLetter 106 (by omega)) blanks_one
  have stop : ∀ t : Str, LinesText (91 :: t) (91 :: t) [] := fun t => .stop _ (.inr rfl)
  have kx : DottedText (t!"\"x\" ") [t!"x"] := .one [] (t!"\"x\"") (t!"x") [32] blanks_none
    (.basic (t!"x") (t!"x") (.char 120 [] [] (notControl_of (by omega)) (by omega) (by omega) .nil)) blanks_one
  have hx : LinesText (t!"\"x\" = false # c\n [[a.b]]") (t!"[[a.b]]") [([t!"x"], .bool false)] :=
    .pair (t!"\"x\" ") _ [32] (t!"false") _ [32] (t!"# c") (t!"\n") (t!" [[a.b]]") _ [] kx blanks_one .false blanks_one
      (.inr ⟨t!" c", rfl, by intro c hc; simp at hc; rcases hc with rfl | rfl <;> exact notControl_of (by omega)⟩) (.inl (.inl rfl)) (.indent [32] _ blanks_one rfl)
  have elem2 : MoreElements none [t!"a", t!"b"] (t!"[[a.b]]") [] [.dict []] :=
    .cons none [t!"a", t!"b"] (t!"[[a.b]]") [] [] [] [] [] (.mk (t!"a.b") _ [] [] [] [] ab blanks_none (.inl rfl) (.inr ⟨rfl, rfl⟩))
      (.mk _ _ _ [] [] [] [] [] (.stop _ (.inl rfl)) .nil (.none ..) (by simp)) (.nil ..)
  have subs : SubTables none [t!"a"] [] (t!"[[a.b]]\n\"x\" = false # c\n [[a.b]]") [] [.mk (t!"b") (.list [.dict [.mk (t!"x") (.bool false)], .dict []])] :=
    .array none [t!"a"] [] (t!"b") _ (t!"\"x\" = false # c\n [[a.b]]") (t!"[[a.b]]") [] [] [.mk (t!"x") (.bool false)] [] [.dict []]
      (.mk (t!"a.b") _ [] [] (t!"\n") _ ab blanks_none (.inl rfl) (.inl (.inl rfl))) (by simp)
      (.mk _ _ _ _ _ _ [.mk (t!"x") (.bool false)] [] hx (.value _ _ _ _ (by simp) .nil) (.none ..) (by simp)) elem2 (.none ..) (by simp)
  refine .mk none [] _ (t!"[a]\n  [[a.b]]\n\"x\" = false # c\n [[a.b]]") [] [([t!"k", t!"m"], .bool true), ([t!"j"], .bool false), ([t!"k", t!"n"], .bool true)]
    [.mk (t!"k") (.dict [.mk (t!"m") (.bool true), .mk (t!"n") (.bool true)]), .mk (t!"j") (.bool false)] _
    (.pair (t!"k.m ") _ [32] (t!"true") _ [] [] (t!"\n") _ _ _ km blanks_one .true blanks_none (.inl rfl) (.inl (.inl rfl))
      (.pair (t!"j ") _ [32] (t!"false") _ [] [] (t!"\n") _ _ _ jj blanks_one .false blanks_none (.inl rfl) (.inl (.inl rfl))
        (.pair (t!"k.n ") _ [32] (t!"true") _ [] [] (t!"\n") _ _ [] kn blanks_one .true blanks_none (.inl rfl) (.inl (.inl rfl)) (stop _))))
    ?_
    (.table none [] [] (t!"a") _ (t!"  [[a.b]]\n\"x\" = false # c\n [[a.b]]") [] [] _ []
      (.mk (t!"a") _ [] [] (t!"\n") _ a1 blanks_none (.inl rfl) (.inl (.inl rfl))) (.mk _ _ _ _ _ [] [] _ (.indent [32, 32] _ blanks_two rfl) .nil subs (by simp)) (.none ..) (by simp))
    (by simp)
  exact .table (t!"k") [t!"m"] _ _ _ _ (by simp)
    (.value (t!"m") _ _ _ (by simp [under]) (.value (t!"n") _ [] [] (by simp) .nil))
    (.value (t!"j") _ _ _ (by simp [beside]) .nil)

end Tomlkit
