import Verif.Proofs.KeptDoc
import Verif.Props.Lossless
import Verif.Props.Grammar
/-!
# C01 for the texts of TOML
-/
namespace Tomlkit
open _root_.Spec Tomlkit.Spec

/-- **C01 (partial)** by the grammar of TOML: every accepted text that is built of the lines of `Spec/Kept.lean` is written as it was read,
whatever its length, the nesting of its values and the order of its headers. The lines are those of TOML, with arrays and inline tables
in each other to any depth and dotted keys, except that no blank stands before a comma of an inline table, no space after a date inside
brackets, no tab after spaces between a date and a comment, and that a header with more than two names is not indented. Besides, the names
of dotted headers and of arrays of tables are spelled alike, no array of tables starts between the headers of another table, and nothing
starts between the elements of an array of tables. Each of these exceptions is needed: see the counterexamples of C01. -/
theorem C01_toml_partial (s : Str) (hs : List (Bool × List (Str × Str))) (hk : KeptLines s hs) (h1 : SpelledOnce hs) (h2 : NotTorn hs)
    (c : Cont) (h : parse s = .ok c) : dumps c = s :=
  parse_dumps (parse_kept hk h1 h2 h)

/-- **C01, C41.** If besides the text is one of the documents of `Spec/TomlDoc.lean`, it is accepted, and nothing need be assumed about
the code: it is read as what it denotes and written as it was read. -/
theorem C01_toml_documents_partial (s : Str) (hs : List (Bool × List (Str × Str))) (l : List PyPair) (hd : DocumentText s l) (hk : KeptLines s hs)
    (h1 : SpelledOnce hs) (h2 : NotTorn hs) : ∃ c, parse s = .ok c ∧ dumps c = s := by
  obtain ⟨c, h, _⟩ := C41_documents_partial s l hd
  exact ⟨c, h, C01_toml_partial s hs hk h1 h2 c h⟩

/-! ## Example: the hypotheses are met -/

theorem C01_example_bare (c : Nat) (hc : 97 ≤ c ∧ c ≤ 122) : KeyText [c] [c] :=
  .bare _ (by simp) (by intro x hx; simp at hx; subst hx; unfold BareChar; omega)

/-- `a.b = [{x = true}, [false]] # c⏎[[p]]⏎t = {u = []}⏎[p.q]⏎[r]` has such lines -/
theorem C01_example_toml : KeptLines (t!"a.b = [{x = true}, [false]] # c\n[[p]]\nt = {u = []}\n[p.q]\n[r]")
    [(true, [(t!"p", t!"p")]), (false, [(t!"p", t!"p"), (t!"q", t!"q")]), (false, [(t!"r", t!"r")])] := by
  have key : ∀ c : Nat, 97 ≤ c ∧ c ≤ 122 → ∀ b, Blanks b → DottedText ([c] ++ b) [[c]] := fun c hc b hb =>
    .one [] [c] [c] b blanks_none (C01_example_bare c hc) hb
  have name : ∀ c : Nat, 97 ≤ c ∧ c ≤ 122 → PathText [c] [([c], [c])] := fun c hc =>
    .one [] [c] [c] [] blanks_none (C01_example_bare c hc) blanks_none
  have vt : KeptValue (t!"true") := .scalar _ _ .true (by simp) (by simp)
  have vf : KeptValue (t!"false") := .scalar _ _ .false (by simp) (by simp)
  have vx : KeptValue (t!"{x = true}") := .table _ (.last (t!"x ") _ [32] (t!"true") [] (key 120 (by omega) [32] blanks_one) blanks_one vt blanks_none (fun _ => by simp))
  have vb : KeptValue (t!"[false]") := .array _ (.elem (t!"false") (t!"]") vf (fun _ => by simp) (.close _))
  have va : KeptValue (t!"[{x = true}, [false]]") := .array _ (.elem (t!"{x = true}") (t!", [false]]") vx (fun _ => by simp)
    (.comma _ (.blank _ 32 _ (.inl rfl) (.elem (t!"[false]") (t!"]") vb (fun _ => by simp) (.close _)))))
  have ve : KeptValue (t!"{u = []}") := .table _ (.last (t!"u ") _ [32] (t!"[]") [] (key 117 (by omega) [32] blanks_one) blanks_one (.array _ (.close _)) blanks_none (fun _ => by simp))
  have l5 : KeptLines (t!"[r]") [(false, [(t!"r", t!"r")])] :=
    .header [] (t!"r") _ [] [] [] [] _ blanks_none (name 114 (by omega)) (.inl rfl) blanks_none (.inl rfl) (.inr ⟨rfl, rfl⟩) .nil
  have l4 : KeptLines (t!"[p.q]\n[r]") _ :=
    .header [] (t!"p.q") _ [] [] (t!"\n") (t!"[r]") _ blanks_none
      (.more [] (t!"p") (t!"p") [] (t!"q") _ blanks_none (C01_example_bare 112 (by omega)) blanks_none (name 113 (by omega)))
      (.inl rfl) blanks_none (.inl rfl) (.inl (.inl rfl)) l5
  have l3 : KeptLines (t!"t = {u = []}\n[p.q]\n[r]") _ :=
    .pair (t!"t ") _ [32] (t!"{u = []}") [] [] (t!"\n") (t!"[p.q]\n[r]") _ (key 116 (by omega) [32] blanks_one) blanks_one ve blanks_none (.inl rfl)
      (.inl (.inl rfl)) (fun _ => .inl rfl) l4
  have l2 : KeptLines (t!"[[p]]\nt = {u = []}\n[p.q]\n[r]") _ :=
    .arrayHeader [] (t!"p") _ [] [] (t!"\n") (t!"t = {u = []}\n[p.q]\n[r]") _ blanks_none (name 112 (by omega)) (.inl rfl)
      (by intro x m y h; have := congrArg List.length h; simp at this) blanks_none (.inl rfl) (.inl (.inl rfl)) l3
  exact .pair (t!"a.b ") _ [32] (t!"[{x = true}, [false]]") [32] (t!"# c") (t!"\n") (t!"[[p]]\nt = {u = []}\n[p.q]\n[r]") _
    (.more [] (t!"a") (t!"a") [] (t!"b ") _ blanks_none (C01_example_bare 97 (by omega)) blanks_none (key 98 (by omega) [32] blanks_one)) blanks_one va blanks_one
    (.inr ⟨t!" c", rfl, by intro c hc; simp at hc; rcases hc with rfl | rfl <;> exact notControl_of (by omega)⟩) (.inl (.inl rfl))
    (fun _ => .inr (.inl (by simp))) l2

/-- its headers are spelled alike and not torn apart -/
theorem C01_example_headers : SpelledOnce [(true, [(t!"p", t!"p")]), (false, [(t!"p", t!"p"), (t!"q", t!"q")]), (false, [(t!"r", t!"r")])] ∧
    NotTorn [(true, [(t!"p", t!"p")]), (false, [(t!"p", t!"p"), (t!"q", t!"q")]), (false, [(t!"r", t!"r")])] := by
  constructor
  · unfold SpelledOnce
    decide
  · intro i j k a1 P1 a2 P2 a3 P3 hij hjk h1 h2 h3 hc
    have hk := (List.getElem?_eq_some_iff.1 h3).1
    simp at hk
    obtain rfl : i = 0 := by omega
    obtain rfl : j = 1 := by omega
    obtain rfl : k = 2 := by omega
    cases h1; cases h2; cases h3
    rcases hc with h | ⟨_, h, _⟩ <;> cases h

set_option maxRecDepth 10000 in
example : (parse (t!"a.b = [{x = true}, [false]] # c\n[[p]]\nt = {u = []}\n[p.q]\n[r]")).toOption.isSome = true := by decide +kernel

end Tomlkit
