import Verif.Proofs.QuietDoc
import Verif.Proofs.CalmCheck
/-!
# C01: reading a text and writing it again

The claim `dumps (parse s) = s` is false of the code: it gives up text in seven situations, each shown below by a
counterexample. The parser of the model writes to a log in exactly these situations and never reads it (`Loss`, in
`Model/Parser.lean`).
-/
namespace Tomlkit

/-- **C01 (partial).** When a text is accepted and none of the seven situations occurs while it is read, writing the
document gives the text back, whatever its length and nesting. Missing for the full claim: those situations, where
it is false. -/
theorem C01_lossless_partial (s : Str) (c : Cont) (h : parseLog s = .ok (c, [])) : parse s = .ok c ∧ dumps c = s := by
  refine ⟨?_, parse_dumps h⟩
  unfold parse
  rw [h]; rfl

/-- **C01 (partial)**, in terms of the text alone: every accepted text that is ordinary (`Spec/Calm.lean`) is written as it was read,
whatever its length and the nesting of its values and tables. Ordinary means: a carriage return is followed by a newline; inline tables and
arrays do not occur together; no blank before a comma if there are inline tables; no white space after a date inside brackets or before a tab;
a line that begins with a bracket is a header (of a table or an array of tables, with any number of names, not indented if there are more
than two) or clearly none; the names of dotted headers and arrays of tables are always spelled alike; headers of an array of tables are
not torn apart, and the sub-tables of a table not by an array of tables. Missing: the other texts that lose nothing, which
`C01_lossless_partial` covers in terms of the log. -/
theorem C01_ordinary_partial (s : Str) (hs : Calm s) (c : Cont) (h : parse s = .ok c) : dumps c = s :=
  parse_dumps (parse_calm hs h)

/-- texts that pass the check are ordinary; this one has a CRLF, a dotted key, nested arrays over two lines, tables and a
date and is accepted, and so is one with inline tables, and one with dotted headers and arrays of tables, whose sub-tables are
themselves arrays -/
theorem C01_ordinary_check (s : Str) (h : calmCheck s = true) : Calm s := calm_of_check h

set_option maxRecDepth 10000 in
example : calmCheck (t!"# h\x0d\n\n a.b = [1, [2, # c\n3]]\n[t] \nd = 1979-05-27 07:32:00Z\n\n[\"u v\"]\nx = 'y'") = true ∧
    (parse (t!"# h\x0d\n\n a.b = [1, [2, # c\n3]]\n[t] \nd = 1979-05-27 07:32:00Z\n\n[\"u v\"]\nx = 'y'")).toOption.isSome = true := by
  decide +kernel

set_option maxRecDepth 10000 in
example : calmCheck (t!"p = {x = {y.z = 1}, w = 2 }\n[t]\nd = 1979-05-27\n") = true ∧
    (parse (t!"p = {x = {y.z = 1}, w = 2 }\n[t]\nd = 1979-05-27\n")).toOption.isSome = true := by
  decide +kernel

set_option maxRecDepth 10000 in
example : calmCheck (t!"[a]\n[b.c]\n[[d]]\nx = [\n  [1, 2],\n  [3,]\n]\n[d.e]\n[[d.f]]\n[[d.f]]\n[[d]]\n[ \"g h\" . y]\n[a.x]\n") = false ∧
    calmCheck (t!"[a]\n[b.c]\n[[d]]\nx = [\n  [1, 2],\n  [3,]\n]\n[d.e]\n[[d.f]]\n[[d.f]]\n[[d]]\n[ \"g h\" . y]\n  [b.x]\n") = false := by
  decide +kernel

set_option maxRecDepth 10000 in
example : calmCheck (t!"[a]\n[b.c]\n[a.x]\n[[d]]\nx = [\n  [1, 2],\n  [3,]\n]\n[d.e]\n[[d.f]]\n[[d.f]]\n[[d]]\n  [ \"g h\" . y]\n") = true ∧
    (parse (t!"[a]\n[b.c]\n[a.x]\n[[d]]\nx = [\n  [1, 2],\n  [3,]\n]\n[d.e]\n[[d.f]]\n[[d.f]]\n[[d]]\n  [ \"g h\" . y]\n")).toOption.isSome = true := by
  decide +kernel

/-- what is written for a text, and what was given up while it was read -/
def rewritten (s : Str) : Option (Str × List Loss) := (parseLog s).toOption.map fun p => (dumps p.1, p.2)

/-- the document of the examples: comments, CRLF, blanks, dotted keys, dates, arrays over several lines, implicit
tables, arrays of tables with sub-tables -/
def exampleDoc : Str := t!"# h\x0d\ntitle = \"x\" # c\n\n[owner]\n  name.first = 'Tom'\ndob = 1979-05-27T07:32:00-08:00 # d\n[db]\nports = [ 8001, 8002, # p\n 8003 ]\n[a.b]\n[a.c]\n[[p]]\nx=1\n[p.q]\n[[p]]\n"

set_option maxRecDepth 10000 in
example : rewritten exampleDoc = some (exampleDoc, []) := by decide +kernel

set_option maxRecDepth 10000 in
/-- an exception is swallowed together with the text read before it -/
theorem C01_counterexample_swallowed : rewritten (t!"x = [{a=1 ]") = some (t!"x = []", [.swallowed]) := by decide +kernel

set_option maxRecDepth 10000 in
/-- white space after a date -/
theorem C01_counterexample_date : rewritten (t!"a = [1979-05-27 ]") = some (t!"a = [1979-05-27]", [.dateWs]) ∧
    rewritten (t!"a = {b = 1979-05-27 }") = some (t!"a = {b = 1979-05-27}", [.dateWs]) ∧
    rewritten (t!"a = 1979-05-27 \t# c") = some (t!"a = 1979-05-27 # c", [.dateWs]) := by decide +kernel

set_option maxRecDepth 10000 in
/-- white space before a comma of an inline table -/
theorem C01_counterexample_comma : rewritten (t!"t = {a = 1 , b = 2}") = some (t!"t = {a = 1,  b = 2}", [.inlineWs]) := by
  decide +kernel

set_option maxRecDepth 10000 in
/-- the second closing bracket of an array of tables -/
theorem C01_counterexample_bracket : rewritten (t!"[[a]x") = some (t!"[[a]]", [.aotClose]) := by decide +kernel

set_option maxRecDepth 10000 in
/-- tables move next to their siblings, or are indented again -/
theorem C01_counterexample_order :
    rewritten (t!"[a.b]\n[[c]]\n[a.d]\n") = some (t!"[a.b]\n[a.d]\n[[c]]\n", [.reordered]) ∧
    rewritten (t!"  [a.b.c]\n  [a.b.d]\n") = some (t!"  [a.b.c]\n    [a.b.d]\n", [.reordered]) := by decide +kernel

set_option maxRecDepth 10000 in
/-- a header comment that ends with a lone carriage return -/
theorem C01_counterexample_return :
    rewritten (t!"[a] # c\x0db = 1\n") = some (t!"[a] # c\x0d\nb = 1\n", [.headerCr]) := by decide +kernel

set_option maxRecDepth 10000 in
/-- the spelling of the second header of an array of tables -/
theorem C01_counterexample_spelling : rewritten (t!"[[a]]\n[[ a ]]\n") = some (t!"[[a]]\n[[a]]\n", [.respelled]) := by
  decide +kernel

end Tomlkit
