import Verif.Model.Ops
/-!
# Shallow copies

Python objects are values here: what the copy shares with the original is not modelled, an operation on the copy does not
show in the original. Deep copies are in `Model/Container.lean` (`Cont.deepCopy`), because `append` makes them.
-/
namespace Tomlkit

/-- `copy.copy(container)`, container.py:755-766: entries, index and keys are taken over, `_table_keys` is not. -/
def Cont.shallow (c : Cont) : Cont := .mk c.body c.map c.dict c.parsed []

/-- `copy.copy(table)`, items.py:1575-1583. -/
def Tbl.shallow (t : Tbl) : Tbl := .mk t.cont.shallow t.trivia t.isAot t.superFlag t.name t.display

/-- `copy.copy(inline_table)` and `copy.copy(table)`, items.py:1506-1507, 1575-1583, 1772-1773. Of the other items only
tables and inline tables define `__copy__`; `copy.copy` of the others goes through `__reduce__` and is not modelled. -/
def Item.shallow : Item → Item
  | .table tb => .table tb.shallow
  | .inline c t new => .inline c.shallow t new
  | i => i

end Tomlkit
