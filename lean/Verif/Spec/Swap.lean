import Verif.Spec.EditText
/-!
# What the claim about replacing a value by a table, or a table by a value (C39), means

In a text, a value written below a header belongs to the table of that header. So a value is a key of the document only if
no header is written before it.
-/
namespace Tomlkit.Spec
open Tomlkit

/-- no header among the entries: a value written after them belongs where they belong -/
def NoHeader (es : List Entry) : Prop := ∀ e ∈ es, opensTable e = false

/-- everything with a key among the entries has its own header: nothing of it is taken over by a header written before -/
def OnlyHeaders (es : List Entry) : Prop := ∀ e ∈ es, e.key.isSome = true → opensTable e = true

/-- the text of some entries of a document -/
def textOf (es : List Entry) : Str := es.flatMap fun e => e.render none none

end Tomlkit.Spec
