import Verif.Proofs.Consist
import Verif.Props.Files
/-!
# C10, C11, C29, C37: what parsing any text can do

RecursionError (very deep nesting) and other limits of the Python process are not part of the model.
-/
namespace Tomlkit
open Spec

/-- the exception of a failed computation -/
def errOf {α : Type} : Except Err α → Option Err
  | .ok _ => none
  | .error e => some e

/-! ## C10 -/

/-- **C10.** For every text the parser ends with a document or an exception: every loop and every recursion of the
parser is cut off in the model by a counter proportional to the length of the text, and the counter never runs out. -/
theorem C10_parse_terminates (s : Str) : (∃ c, parse s = .ok c) ∨ ∃ e, parse s = .error e ∧ e ≠ .fuel := by
  rcases h : parse s with e | c
  · refine Or.inr ⟨e, rfl, ?_⟩
    rintro rfl
    rcases (parse_all s).2 _ h with ⟨_, _, h, _⟩ | ⟨h, _⟩ | h | h | h | h <;> cases h
  · exact Or.inl ⟨c, rfl⟩

/-- **C10**, the steps: from any state a value, and from any state the tables that follow, are read or refused within
a number of calls linear in the length of the remaining text. -/
theorem C10_steps_bounded (st : St) (n : Nat) :
    (3 * st.rest.length + 1 ≤ n → ∀ e s, parseValue n st = .err e s → e ≠ .fuel) ∧
    (∀ c : Cont, c.Good PW → 4 * st.rest.length + 2 ≤ n → ∀ e s, topTables n c st = .err e s → e ≠ .fuel) := by
  constructor
  · intro hn e s h
    have := (value_does n).1 st hn
    unfold Does P.wp at this
    rw [h] at this
    rintro rfl
    rcases this.2.2 with ⟨_, _, h, _⟩ | ⟨h, _⟩ | h | h | h | h <;> cases h
  · intro c hc hn e s h
    have := topTables_does n st c hn hc
    unfold DoesT P.wp at this
    rw [h] at this
    rintro rfl
    rcases this with ⟨_, _, h, _⟩ | ⟨h, _⟩ | h | h | h | h <;> cases h

set_option maxRecDepth 10000 in
example : (parse (t!"a = [1, {b = 2}]\n[c]\n[[d]]\n")).toOption.isSome = true ∧
    errOf (parse (t!"a = [1, {b = ")) = some (.parse .unexpectedChar 0) := by decide +kernel

/-! ## C11 -/

/-- **C11 (partial).** When `parse` refuses a text, the exception is a `TOMLKitError`, with three exceptions: an
`OverflowError`, which needs a number of ten digits in the text; an `AttributeError`; and documents with a table whose
parts are spread such that an object is shared, which the model does not describe. Missing for the full claim: the
first two do escape, see the counterexamples. -/
theorem C11_failure_is_tomlkit_partial (s : Str) (e : Err) (h : parse s = .error e) :
    e.isTomlkit = true ∨ (e = .overflowError ∧ LongNumber s) ∨ e = .attributeError ∨ e = .unmodelled := by
  rcases (parse_all s).2 e h with ⟨k, n, rfl, _⟩ | h | rfl | rfl | rfl | rfl
  · exact Or.inl rfl
  · exact Or.inr (Or.inl h)
  · exact Or.inl rfl
  · exact Or.inl rfl
  · exact Or.inr (Or.inr (Or.inl rfl))
  · exact Or.inr (Or.inr (Or.inr rfl))

set_option maxRecDepth 10000 in
/-- **C11 fails**: a year beyond a C int raises `OverflowError`, which is no `TOMLKitError`. -/
theorem C11_counterexample_overflow :
    errOf (parse (t!"a = 99999999999-01-01\n")) = some .overflowError ∧ Err.overflowError.isTomlkit = false := by
  decide +kernel

set_option maxRecDepth 10000 in
/-- **C11 fails**: a valid document with indented headers raises `AttributeError`. -/
theorem C11_counterexample_attribute :
    errOf (parse (t!"[x]\n  [x.a.b.d.e]\n  [x.a.b.d]\n")) = some .attributeError ∧
      Err.attributeError.isTomlkit = false := by
  decide +kernel

set_option maxRecDepth 10000 in
example : errOf (parse (t!"a = 1\na = 2\n")) = some (.parse .generic 0) ∧
    errOf (parse (t!"[t]\na = 1\na = 2\n")) = some .keyAlreadyPresent := by decide +kernel

/-! ## C29 -/

/-- **C29**, the position: a parse error is raised at a position of the text (its end included). -/
theorem C29_position_in_text (s : Str) (k : PKind) (rem : Nat) (h : parse s = .error (.parse k rem)) :
    rem ≤ s.length := by
  rcases (parse_all s).2 _ h with ⟨k', n, h, hn⟩ | ⟨h, _⟩ | h | h | h | h
  · cases h; exact hn
  all_goals cases h

/-- **C29 (partial).** For a text whose only line separators are `\n`: the line and column of the parse error are those
of a position of the text. Missing: other line separators and the position after a final line break, for which the
claim is false. -/
theorem C29_error_located_partial (s : Str) (hs : Spec.PlainLines s) (p : Nat × Nat) (h : errorPosition s = some p) :
    ∃ k rem, parse s = .error (.parse k rem) ∧ rem ≤ s.length ∧
      (¬ AfterLastLine s (s.length - rem) →
        p = (Spec.lineOf s (s.length - rem), Spec.columnOf s (s.length - rem))) := by
  obtain ⟨k, rem, h1, h2⟩ := C29_error_partial s hs p h
  exact ⟨k, rem, h1, C29_position_in_text s k rem h1, h2⟩

/-! ## C37, C13 for parsed documents -/

/-- **C13**, parsed documents: if `parse` accepts a text, then in the document and in every table, array of tables and
inline table inside it, lookup and rendering agree. -/
theorem C13_parsed_consistent (s : Str) (c : Cont) (h : parse s = .ok c) : Every Consistent c :=
  (every_iff c).2 ((parse_all s).1 c h)

/-- no two entries for one key, except parts of a table -/
def UniqueKeys (c : Cont) : Prop :=
  ∀ i j k v w, HoldsAt c i k v → HoldsAt c j k w → i ≠ j → v.isTable = true ∧ w.isTable = true

/-- **C37.** If `parse` accepts a text, no container of the document, at any depth, holds two values for one key, except
tables written in several places. -/
theorem C37_unique_keys (s : Str) (c : Cont) (h : parse s = .ok c) : Every UniqueKeys c :=
  Cont.every (fun _ hw => (consistent_of_WF hw).parts) c ((parse_all s).1 c h)

/-- **C37**, lines: a key that has a value that is no table has no other entry. -/
theorem C37_value_keys_once (c : Cont) (h : UniqueKeys c) (i j : Nat) (k : Str) (v w : Item) (hv : HoldsAt c i k v)
    (hw : HoldsAt c j k w) (ht : v.isTable = false) : i = j := by
  by_cases hij : i = j
  · exact hij
  · have := (h i j k v w hv hw hij).1
    rw [ht] at this; cases this

set_option maxRecDepth 10000 in
example : (parse (t!"a = 1\n[t]\nx = {y = 1}\n[u]\n[t.s]\n")).toOption.map
    (fun c => (c.body.length, mapGet (t!"t") c.map)) = some (4, some [1, 3]) := by
  decide +kernel

end Tomlkit
