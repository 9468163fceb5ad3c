import Verif.Model.Api
import Verif.Model.PyList
/-!
# Editing arrays and arrays of tables (items.py: Array, AoT)
-/
namespace Tomlkit

/-! ## Array -/

/-- The state of an `Array` object, items.py:1137-1148: the built-in list, the groups `_value`, and `_index_map`
(a dict with the keys 0, 1, ... — the list of its values). Elements are values: an element that is itself mutated in
place is not represented. -/
structure ArrObj where
  list : List Item
  groups : List AGroup
  imap : List Nat

/-- Is the value of a group an element? `not (v.value is None or isinstance(v.value, Null))`, items.py:1239. -/
def AGroup.hasElem : AGroup → Bool
  | .noval .. => false
  | .val _ v _ _ => !v.isNull

/-- `_reindex`, items.py:1235-1242, from position `i` on. -/
def reindexFrom (i : Nat) : List AGroup → List Nat
  | [] => []
  | g :: r => if g.hasElem then i :: reindexFrom (i + 1) r else reindexFrom (i + 1) r

/-- `Array._reindex`, items.py:1235-1242. -/
def reindex (gs : List AGroup) : List Nat := reindexFrom 0 gs

/-- `Array.__init__`, items.py:1137-1148. -/
def mkArray (value : List Item) : ArrObj :=
  let gs := groupValues value
  ⟨value.filter fun v => !(v.isWhitespace || v.isComment || v.isNull), gs, reindex gs⟩

/-- `group.is_whitespace()`, items.py:1121-1122. -/
def AGroup.isWsOnly : AGroup → Bool
  | .noval _ _ none => true
  | _ => false

/-- `group.indent` -/
def AGroup.indent : AGroup → Option Str
  | .noval i _ _ => i
  | .val i _ _ _ => i
/-- `group.comma` -/
def AGroup.comma : AGroup → Option Str
  | .noval _ c _ => c
  | .val _ _ c _ => c
/-- `isinstance(group.value, Null)` -/
def AGroup.isNullVal : AGroup → Bool
  | .noval .. => false
  | .val _ v _ _ => v.isNull
/-- `group.comma = c` -/
def AGroup.setComma (c : Option Str) : AGroup → AGroup
  | .noval i _ m => .noval i c m
  | .val i v _ m => .val i v c m
/-- `group.indent = i` -/
def AGroup.setIndent (i : Option Str) : AGroup → AGroup
  | .noval _ c m => .noval i c m
  | .val _ v c m => .val i v c m
/-- `group.value = v` -/
def AGroup.setValue (v : Item) : AGroup → AGroup
  | .noval i c m => .val i v c m
  | .val i _ c m => .val i v c m

/-- `isinstance(it, (Comment, Whitespace))` -/
def Item.isFiller (it : Item) : Bool := it.isComment || it.isWhitespace

/-- The group position of an insertion and the default indent, items.py:1356-1373: `pos` is already made
non-negative. `none` is the `IndexError` of 1361-1362. -/
def insertPoint (gs : List AGroup) (imap : List Nat) (length pos : Nat) : Option (Nat × Str) :=
  if pos < length then (imap[pos]?).map (·, t!" ")
  else
    let idx := gs.length
    match gs.getLast? with
    | some g =>
      if g.isWsOnly then
        some (idx - 1, match g.indent with
          | some s => if hasNl s then t!"\n    " else t!" "
          | none => t!" ")
      else some (idx, t!" ")
    | none => some (idx, t!" ")

/-- The groups after an insertion at group position `idx`, items.py:1374-1391. -/
def insertGroup (gs : List AGroup) (idx : Nat) (dflt : Str) (atEnd : Bool) (it : Item) : List AGroup :=
  let comma : Option Str := if atEnd then none else some (t!",")
  let indent : Option Str := match gs[idx]? with
    | some g => if g.isWsOnly then none else g.indent
    | none => none
  if idx = 0 then
    let indent := if indent.isNone && hasNl dflt then some dflt else indent
    gs.insertIdx idx (.val indent it comma none)
  else
    match gs[idx - 1]? with
    | none => gs.insertIdx idx (.val indent it comma none)
    | some last =>
      let indent := if indent.isNone then last.indent else indent
      let comma := if !last.isNullVal && hasNl dflt then last.comma else comma
      let gs := if last.comma.isNone && !last.isNullVal then gs.set (idx - 1) (last.setComma (some (t!","))) else gs
      let indent := if indent.isNone then some dflt else indent
      gs.insertIdx idx (.val indent it comma none)

/-- `Array.insert(pos, it)`, items.py:1344-1392, for an `it` that already is an item. -/
def ArrObj.insert (a : ArrObj) (pos : Int) (it : Item) : Except Err ArrObj :=
  let length := a.list.length
  let list := if it.isFiller then a.list else pyInsert a.list pos it
  let p : Nat := if pos < 0 then (pos + length).toNat else pos.toNat
  match insertPoint a.groups a.imap length p with
  | none => .error .indexError
  | some (idx, dflt) =>
    let gs := insertGroup a.groups idx dflt (!(p < length)) it
    .ok ⟨list, gs, reindex gs⟩

/-- `Array.__setitem__(k, it)`, items.py:1335-1342, for an integer index. -/
def ArrObj.setItem (a : ArrObj) (k : Int) (it : Item) : Except Err ArrObj :=
  match pyIndex k a.list.length with
  | none => .error .indexError
  | some i =>
    match a.imap[i]? with
    | none => .error .assertion
    | some gi => .ok { a with list := a.list.set i it, groups := a.groups.modify gi (AGroup.setValue it) }

/-- one deletion in the group list, items.py:1412-1420 -/
def deleteGroup (gs : List AGroup) (idx : Nat) : List AGroup :=
  let gs := gs.eraseIdx idx
  if idx = 0 then
    match gs with
    | g :: r => (match g.indent with
        | some s => if hasNl s then g else g.setIndent none
        | none => g) :: r
    | [] => []
  else gs

/-- `v = self._value[-1]; if not v.is_whitespace(): v.comma = None`, items.py:1421-1425 -/
def trimLastComma (gs : List AGroup) : List AGroup :=
  match gs.getLast? with
  | some g => if g.isWsOnly then gs else gs.dropLast ++ [g.setComma none]
  | none => gs

/-- The loop of `__delitem__` over positions already sorted in reverse, items.py:1405-1420; positions that are not in
the index map are skipped (for a slice). -/
def deleteGroups (imap : List Nat) : List AGroup → List Int → List AGroup
  | gs, [] => gs
  | gs, i :: r =>
    match (if 0 ≤ i then imap[i.toNat]? else none) with
    | some idx => deleteGroups imap (deleteGroup gs idx) r
    | none => deleteGroups imap gs r

/-- `Array.__delitem__(k)`, items.py:1394-1426, for an integer index. -/
def ArrObj.delItem (a : ArrObj) (k : Int) : Except Err ArrObj :=
  match pyDel a.list k with
  | none => .error .indexError
  | some l =>
    let i : Int := if k < 0 then a.list.length + k else k
    match (if 0 ≤ i then a.imap[i.toNat]? else none) with
    | none => .error .indexError
    | some idx =>
      let gs := trimLastComma (deleteGroup a.groups idx)
      .ok ⟨l, gs, reindex gs⟩

/-- `x or d` for an optional integer: `None` and `0` are false -/
def orElseInt (x : Option Int) (d : Int) : Int :=
  match x with
  | some v => if v = 0 then d else v
  | none => d

/-- insertion into a list sorted in descending order -/
def insDesc (x : Int) : List Int → List Int
  | [] => [x]
  | y :: r => if x ≥ y then x :: y :: r else y :: insDesc x r

/-- `sorted(l, reverse=True)` -/
def sortDesc (l : List Int) : List Int := l.foldr insDesc []

/-- `range(key.start or 0, key.stop or length, key.step or 1)`, items.py:1399-1401 -/
def codeSliceIndices (s : PySlice) (length : Nat) : List Int :=
  pyRange (orElseInt s.start 0) (orElseInt s.stop length) (orElseInt s.step 1)

/-- `Array.__delitem__(slice)`, items.py:1394-1426. -/
def ArrObj.delSlice (a : ArrObj) (s : PySlice) : Except Err ArrObj :=
  match pyDelSlice a.list s with
  | none => .error .valueError
  | some l =>
    let gs := trimLastComma (deleteGroups a.imap a.groups (sortDesc (codeSliceIndices s a.list.length)))
    .ok ⟨l, gs, reindex gs⟩

/-- `Array.clear`, items.py:1320-1324. -/
def ArrObj.clear (_ : ArrObj) : ArrObj := ⟨[], [], []⟩

/-- `MutableSequence.append`: `insert(len(self), value)`. -/
def ArrObj.append (a : ArrObj) (it : Item) : Except Err ArrObj := a.insert a.list.length it

/-- `MutableSequence.extend`, and `__iadd__`: append one by one. -/
def ArrObj.extend (a : ArrObj) : List Item → Except Err ArrObj
  | [] => .ok a
  | it :: r =>
    match a.append it with
    | .ok b => b.extend r
    | .error e => .error e

/-- `Array.as_string`, items.py:1216-1233. -/
def ArrObj.asString (a : ArrObj) (t : Trivia) (multiline : Bool) : Str := (Item.array a.groups t multiline).asString

/-! ### add_line -/

/-- The elements that `add_line` makes of one item, items.py:1277-1292: `pend` is the white space collected so far.
`none` is the `ValueError` of 1280. -/
def addLineLoop (addComma : Bool) (n : Nat) : (i : Nat) → (pend : Str) → List Item → Option (List Item)
  | _, pend, [] => some (if pend.isEmpty then [] else [.ws pend false])
  | i, pend, it :: r =>
    if it.isComment || (addComma && it.isWhitespace) then none
    else
      match it with
      | .ws s f =>
        if s.contains 44 then (addLineLoop addComma n (i + 1) pend r).map (.ws s f :: ·)
        else addLineLoop addComma n (i + 1) (pend ++ s) r
      | it =>
        (addLineLoop addComma n (i + 1) [] r).map fun rest =>
          (if pend.isEmpty then [] else [.ws pend false]) ++ it ::
            ((if addComma then .ws (t!",") false :: (if i + 1 != n then [.ws (t!" ") false] else []) else []) ++ rest)

/-- the comment of `add_line`, items.py:1295-1299 -/
def lineComment (items : List Item) : Option Str → List Item
  | some c => if c.isEmpty then [] else
      [.comment { indent := if items.isEmpty then [] else t!" ", comment := t!"# " ++ c, trail := [] }]
  | none => []

/-- `new_values` of `add_line`, items.py:1267-1299. -/
def addLineValues (items : List Item) (indent : Str) (comment : Option Str) (addComma newline : Bool) :
    Option (List Item) :=
  let first := if newline then 10 :: indent else indent
  (addLineLoop addComma items.length 0 [] items).map fun vs =>
    (if first.isEmpty then [] else [.ws first false]) ++ vs ++ lineComment items comment

/-- `last_value_item.comma = Whitespace(",")`, items.py:1303-1312: the last group with an element. -/
def setLastComma : List AGroup → List AGroup
  | [] => []
  | g :: r =>
    if r.any AGroup.hasElem then g :: setLastComma r
    else if g.hasElem then g.setComma (some (t!",")) :: r
    else g :: setLastComma r

/-- the items whose `value` is not the item itself but plain data: `Bool.value`,
`AbstractTable.value`, `AoT.value`, items.py:784-786, 1456-1457, 1870-1871 -/
def Item.losesItem : Item → Bool
  | .bool .. | .inline .. | .table .. | .aot .. => true
  | _ => false

/-- `Array.add_line`, items.py:1244-1318. The code extends the list with `it.value`, which is `it` itself except
for booleans and inline tables; for those the list elements are no items any more and the model answers
`unmodelled`. -/
def ArrObj.addLine (a : ArrObj) (items : List Item) (indent : Str) (comment : Option Str) (addComma newline : Bool) :
    Except Err ArrObj :=
  match addLineValues items indent comment addComma newline with
  | none => .error .valueError
  | some vs =>
    if items.any Item.losesItem then .error .unmodelled
    else
      let list := a.list ++ items.filter fun i => !i.isWhitespace
      let new := groupValues vs
      let gs := match a.groups.getLast? with
        | none => new
        | some last =>
          let gs := setLastComma a.groups
          if last.isWsOnly then gs.dropLast ++ new ++ gs.drop (gs.length - 1) else gs ++ new
      .ok ⟨list, gs, reindex gs⟩

/-! ## AoT -/

/-- The state of an `AoT` object, items.py:1840-1850: the tables of `_body` with the identities of the table objects,
and the built-in list part (identities only). -/
structure AoTObj where
  tables : List Tbl
  ids : List Nat
  shadow : List Nat
  own : Trivia
  parsed : Bool

/-- `AoT.insert(index, value)`, items.py:1894-1922, for a table object `id`. -/
def AoTObj.insert (a : AoTObj) (index : Int) (id : Nat) (v : Tbl) : AoTObj :=
  let i := clampIndex index a.tables.length
  { a with
    tables := aotInsert a.own a.parsed a.tables index v
    ids := a.ids.insertIdx i id
    shadow := pyInsert a.shadow i id }

/-- `AoT.__delitem__(k)`, items.py:1890-1892, for an integer index. -/
def AoTObj.delItem (a : AoTObj) (k : Int) : Except Err AoTObj :=
  match pyDel a.tables k, pyDel a.ids k, pyDel a.shadow k with
  | some t, some i, some s => .ok { a with tables := t, ids := i, shadow := s }
  | _, _, _ => .error .indexError

/-- `AoT.__delitem__(slice)`, items.py:1890-1892. -/
def AoTObj.delSlice (a : AoTObj) (s : PySlice) : Except Err AoTObj :=
  match pyDelSlice a.tables s, pyDelSlice a.ids s, pyDelSlice a.shadow s with
  | some t, some i, some sh => .ok { a with tables := t, ids := i, shadow := sh }
  | _, _, _ => .error .valueError

/-- `MutableSequence.append` -/
def AoTObj.append (a : AoTObj) (id : Nat) (v : Tbl) : AoTObj := a.insert a.tables.length id v

end Tomlkit
