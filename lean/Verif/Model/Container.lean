import Verif.Model.Utils
/-!
# container.py: the editing operations of a container

Python objects are values here; a mutation returns the new value. The second component of the result of
`Cont.append` is a *ghost*: it tells whether text was added somewhere else than at the end of the container, or
under another spelling of its name, or re-indented.
Nothing in the model reads it except the ghost log of the parser (`St.loss`).
-/
namespace Tomlkit

/-- The parse errors of exceptions.py (subclasses of `ParseError`). -/
inductive PKind
  | generic | unexpectedChar | emptyKey | emptyTableName | invalidCharInString | invalidControlChar
  | invalidDate | invalidDateTime | invalidTime | invalidNumber | invalidUnicode | unexpectedEof | internal
deriving DecidableEq, Repr

/-- Exceptions as values. `parse k rem` is a `ParseError` raised when `rem` characters remained.
`unmodelled` marks behaviour that depends on objects shared between two places; `fuel` is no Python exception. -/
inductive Err
  | parse (k : PKind) (rem : Nat)
  | keyAlreadyPresent | nonExistentKey | tomlkit
  | valueError | indexError | overflowError | attributeError | typeError | convertError | assertion
  | invalidString | notImplemented
  | unmodelled | fuel
deriving DecidableEq, Repr

/-- Is the exception a `TOMLKitError`? exceptions.py:6-227: `ParseError`, `KeyAlreadyPresent`,
`NonExistentKey`, `ConvertError` and `InvalidStringError` derive from it. -/
def Err.isTomlkit : Err → Bool
  | .parse .. | .keyAlreadyPresent | .nonExistentKey | .tomlkit | .convertError | .invalidString => true
  | _ => false

/-! ## Indentation -/

/-- `re.match("(?s)^[^ ]*([ ]+).*$", s)` and its group 1: the first run of spaces, items.py:1540, 1608, 1660, 1901. -/
def spaceRun (s : Str) : Option Str :=
  let r := (s.dropWhile (· != 32)).takeWhile (· == 32)
  if r = [] then none else some r

/-- `m.group(1) + indent + m.group(2)` with `re.match("(?s)^([^ ]*)(.*)$", s)`, items.py:1541-1547, 1613-1617, 1905-1909. -/
def insertIndent (ind s : Str) : Str :=
  s.takeWhile (· != 32) ++ ind ++ s.dropWhile (· != 32)

/-! ## Small operations -/

/-- assignment in a Python `dict` with string keys: keep the position, or add at the end -/
def mapSet (k : Str) (v : List Nat) : List (Str × List Nat) → List (Str × List Nat)
  | [] => [(k, v)]
  | (k', v') :: r => if k' == k then (k', v) :: r else (k', v') :: mapSet k v r

/-- deletion in a Python `dict` -/
def mapDel (k : Str) (m : List (Str × List Nat)) : List (Str × List Nat) := m.filter fun p => !(p.1 == k)

/-- the keys of the underlying `dict` after `dict.__setitem__(self, k, _)` -/
def dictSet (k : Str) (d : List Str) : List Str := if d.contains k then d else d ++ [k]

/-- the keys of the underlying `dict` after `dict.__delitem__(self, k)` -/
def dictDel (k : Str) (d : List Str) : List Str := d.filter fun x => !(x == k)

/-- `Container(parsed)`, container.py:36-40. -/
def Cont.empty (parsed : Bool) : Cont := .mk [] [] [] parsed []

/-- `_previous_item()`, container.py:768-785, without arguments: the last item that is not `Null`. -/
def Cont.prevItem (c : Cont) : Option Item :=
  (c.body.reverse.find? fun e => !e.v.isNull).map Entry.v

/-- position of that item, container.py:768-778 -/
def Cont.prevIndex (c : Cont) : Option Nat :=
  (c.body.zipIdx.reverse.find? fun p => !p.1.v.isNull).map (·.2)

/-- `ends_with_whitespace`, container.py:869-875. The elements of an `AoT` are tables, never white space. -/
def endsWithWs : Item → Bool
  | .table tb => match tb.cont.prevItem with
    | some v => v.isWhitespace
    | none => false
  | _ => false

/-- `prev_ws`, container.py:177-178. -/
def Cont.prevWs (c : Cont) : Bool :=
  match c.prevItem with
  | some v => v.isWhitespace || endsWithWs v
  | none => false

/-- change the trivia of the entry at a position -/
def setTriviaAt (i : Nat) (f : Trivia → Trivia) (es : List Entry) : List Entry :=
  es.modify i fun e => .mk e.key (e.v.setTrivia (f e.v.trivia))

/-- `isinstance(v, Bool)` -/
def Item.isBool : Item → Bool | .bool .. => true | _ => false

/-- `Item.name` of tables and arrays of tables -/
def Item.name? : Item → Option Str
  | .table tb => tb.name
  | .aot _ _ n _ => n
  | _ => none
/-- `item.name = s` -/
def Item.setName (s : Str) : Item → Item
  | .table (.mk c t a su _ d) => .table (.mk c t a su (some s) d)
  | .aot ts t _ p => .aot ts t (some s) p
  | i => i

mutual
/-- `Table.invalidate_display_name`, items.py:1667-1673: forget the header spelling, also of the children. The
children are visited through `self.values()`, i.e. through the index; a key with several positions yields a
proxy, which has no such method. -/
def Tbl.invalidate : Tbl → Tbl
  | .mk (.mk b m d p tk) t a s n _ => .mk (.mk (invalidateBody m 0 b) m d p tk) t a s n none
termination_by structural t => t
@[inherit_doc Tbl.invalidate]
def invalidateBody (m : List (Str × List Nat)) (i : Nat) : List Entry → List Entry
  | [] => []
  | e :: r => e.invalidate m i :: invalidateBody m (i + 1) r
termination_by structural es => es
@[inherit_doc Tbl.invalidate]
def Entry.invalidate (m : List (Str × List Nat)) (i : Nat) : Entry → Entry
  | .mk (some k) v => .mk (some k) (if mapGet k.key m = some [i] then v.invalidate else v)
  | .mk none v => .mk none v
termination_by structural e => e
/-- `AoT.invalidate_display_name`, items.py:1924-1928, and nothing for the other items. -/
def Item.invalidate : Item → Item
  | .table tb => .table tb.invalidate
  | .aot ts t n p => .aot (invalidateAll ts) t n p
  | i => i
termination_by structural i => i
@[inherit_doc Item.invalidate]
def invalidateAll : List Tbl → List Tbl
  | [] => []
  | t :: r => t.invalidate :: invalidateAll r
termination_by structural ts => ts
end

/-! ## Arrays of tables -/

/-- `bool(table)`: a table without keys is false (`AbstractTable.__len__`, items.py:1514-1515). -/
def Tbl.truthy (t : Tbl) : Bool := t.cont.dict.length > 0

/-- `"\n" + indent` unless the indent has a newline, items.py:1913-1916 -/
def nlIndent (t : Tbl) : Tbl :=
  if hasNl t.trivia.indent then t else t.setTrivia { t.trivia with indent := 10 :: t.trivia.indent }

/-- The position of an insertion, items.py:1895-1900. -/
def clampIndex (index : Int) (length : Nat) : Nat :=
  let i := if index < 0 then index + length else index
  if i < 0 then 0 else if i ≥ length then length else i.toNat

/-- `AoT.insert` on the list of tables, items.py:1890-1919, for a value that already is a table. -/
def aotInsert (own : Trivia) (parsed : Bool) (ts : List Tbl) (index : Int) (v : Tbl) : List Tbl :=
  let i := clampIndex index ts.length
  let v := match spaceRun own.indent with
    | some ind => v.setTrivia { v.trivia with indent := insertIndent ind v.trivia.indent }
    | none => v
  if parsed then ts.insertIdx i v
  else
    let v := match (if 0 < i && 0 < ts.length then ts[i - 1]? else none) with
      | some p => if p.truthy then nlIndent v else v
      | none => v
    let ts := if i + 1 < ts.length && ((ts[i + 1]?).map Tbl.truthy).getD false
      then ts.modify (i + 1) nlIndent else ts
    ts.insertIdx i v

/-- `AoT.append`: `MutableSequence.append` is `insert(len(self), value)`. -/
def aotAppend (own : Trivia) (parsed : Bool) (ts : List Tbl) (v : Tbl) : List Tbl :=
  aotInsert own parsed ts ts.length v

/-- `AoT(body, name, parsed)`, items.py:1840-1850. -/
def mkAoT (body : List Tbl) (name : Option Str) (parsed : Bool) : Item :=
  .aot (body.foldl (aotAppend { trail := [] } parsed) []) { trail := [] } name parsed

/-! ## Array groups -/

/-- value of a group under construction: `none` is `None` -/
structure GroupSt where
  indent : Option Str := none
  v : Option Item := none
  comma : Option Str := none
  cmt : Option Trivia := none

/-- `bool(group)`, items.py:1124-1129 -/
def GroupSt.nonEmpty (g : GroupSt) : Bool :=
  g.indent.isSome || g.v.isSome || g.comma.isSome || g.cmt.isSome

/-- a finished group -/
def GroupSt.toGroup (g : GroupSt) : AGroup :=
  match g.v with
  | some v => .val g.indent v g.comma g.cmt
  | none => .noval g.indent g.comma g.cmt

/-- append the finished group unless it is empty -/
def flushGroup (g : GroupSt) : List AGroup := if g.nonEmpty then [g.toGroup] else []

/-- `_group_values`, items.py:1151-1176, on the group under construction. -/
def groupLoop (g : GroupSt) : List Item → List AGroup
  | [] => flushGroup g
  | .ws s f :: r =>
    if !s.contains 44 then flushGroup g ++ groupLoop { indent := some s } r
    else
      let _ := f
      groupLoop { g with v := some (g.v.getD Item.nullItem), comma := some s } r
  | .comment t :: r => groupLoop { g with v := some (g.v.getD Item.nullItem), cmt := some t } r
  | it :: r =>
    match g.v with
    | none => groupLoop { g with v := some it } r
    | some _ => flushGroup g ++ groupLoop { v := some it } r

/-- `Array._group_values`, items.py:1151-1176. -/
def groupValues (items : List Item) : List AGroup := groupLoop {} items

/-- The items of a group, `_ArrayItemGroup.__iter__`, items.py:1113-1116. -/
def AGroup.items : AGroup → List Item
  | .noval i c m =>
    (i.map fun s => Item.ws s false).toList ++ (c.map fun s => Item.ws s false).toList ++ (m.map Item.comment).toList
  | .val i v c m =>
    (i.map fun s => Item.ws s false).toList ++ [v] ++ (c.map fun s => Item.ws s false).toList
      ++ (m.map Item.comment).toList

/-- `Array._iter_items`, items.py:1193-1195. -/
def groupItems (gs : List AGroup) : List Item := gs.flatMap AGroup.items

/-! ## Copies -/

/-- the keys of the `dict` rebuilt by `Container.__setstate__`, container.py:751-753 -/
def dictOfBody (b : List Entry) : List Str :=
  b.foldl (fun d e => match e.key with | some k => dictSet k.key d | none => d) []

mutual
/-- `copy.deepcopy(item)`: every class is rebuilt from its `_getstate` (items.py:532-534 and the overrides).
`InlineTable._getstate` (1775-1776) forgets `_new`; an `Array` is regrouped (1428-1429); an `AoT` is rebuilt
through `insert` (1940-1941, 1840-1850) and loses its own trivia; `Null()` is fresh. -/
def Item.deepCopy : Item → Item
  | .array gs t ml => .array (groupValues (groupItems (gs.deepCopyGroups))) t ml
  | .inline c t _ => .inline c.deepCopy t false
  | .table tb => .table tb.deepCopy
  | .aot ts _ n p => mkAoT ts.deepCopyTables n p
  | .null _ => Item.nullItem
  | i => i
termination_by structural i => i
@[inherit_doc Item.deepCopy]
def _root_.List.deepCopyGroups : List AGroup → List AGroup
  | [] => []
  | g :: r => g.deepCopy :: r.deepCopyGroups
termination_by structural g => g
@[inherit_doc Item.deepCopy]
def AGroup.deepCopy : AGroup → AGroup
  | .noval i c m => .noval i c m
  | .val i v c m => .val i v.deepCopy c m
termination_by structural g => g
@[inherit_doc Item.deepCopy]
def Tbl.deepCopy : Tbl → Tbl
  | .mk c t a s n d => .mk c.deepCopy t a s n d
termination_by structural t => t
/-- `Container.__reduce_ex__` / `__setstate__`, container.py:738-753. -/
def Cont.deepCopy : Cont → Cont
  | .mk b m _ p tk => .mk b.deepCopyEntries m (dictOfBody b) p tk
termination_by structural c => c
@[inherit_doc Item.deepCopy]
def _root_.List.deepCopyEntries : List Entry → List Entry
  | [] => []
  | e :: r => e.deepCopy :: r.deepCopyEntries
termination_by structural e => e
@[inherit_doc Item.deepCopy]
def Entry.deepCopy : Entry → Entry
  | .mk k v => .mk k v.deepCopy
termination_by structural e => e
@[inherit_doc Item.deepCopy]
def _root_.List.deepCopyTables : List Tbl → List Tbl
  | [] => []
  | t :: r => t.deepCopy :: r.deepCopyTables
termination_by structural t => t
end

/-! ## Insertion and removal -/

/-- `_raw_append`, container.py:303-324. -/
def Cont.rawAppend (c : Cont) (key : Option SKey) (item : Item) : Except Err Cont :=
  match key with
  | none => .ok (.mk (c.body ++ [.mk none item]) c.map c.dict c.parsed c.tableKeys)
  | some k =>
    let tk := if item.isTable then c.tableKeys ++ [k.key] else c.tableKeys
    match mapGet k.key c.map with
    | some idxs =>
      match idxs.getLast? >>= fun i => c.body[i]? with
      | some e =>
        if e.v.isTable then
          .ok (.mk (c.body ++ [.mk key item]) (mapSet k.key (idxs ++ [c.body.length]) c.map)
            (dictSet k.key c.dict) c.parsed tk)
        else .error .keyAlreadyPresent
      | none => .error .indexError
    | none =>
      .ok (.mk (c.body ++ [.mk key item]) (mapSet k.key [c.body.length] c.map)
        (dictSet k.key c.dict) c.parsed tk)

/-- The loop of `_get_last_index_before_table`, container.py:138-148. -/
def lastBeforeTable : List Entry → Nat → Nat → Nat
  | [], _, last => last
  | .mk k v :: r, i, last =>
    match v with
    | .null _ => lastBeforeTable r (i + 1) last
    | .ws _ false => lastBeforeTable r (i + 1) last
    | v => if v.isTableLike && !isDottedKey k then last else lastBeforeTable r (i + 1) (i + 1)

/-- `_get_last_index_before_table`, container.py:136-148: one past the last entry to insert after. -/
def Cont.lastIndexBeforeTable (c : Cont) : Nat := lastBeforeTable c.body 0 0

/-- `previous_item.trivia.trail += "\n"` unless the item ends a line, container.py:294-299 (and 420-428 with
`isTable`). -/
def addTrailNl (i : Nat) (es : List Entry) : List Entry :=
  es.modify i fun e =>
    if e.v.isWhitespace || endsWithWs e.v || hasNl e.v.trivia.trail then e
    else .mk e.key (e.v.setTrivia { e.v.trivia with trail := e.v.trivia.trail ++ [10] })

/-- index shift of `_insert_at`, container.py:431-442 -/
def shiftFrom (idx : Nat) (m : List (Str × List Nat)) : List (Str × List Nat) :=
  m.map fun p => (p.1, p.2.map fun v => if idx ≤ v then v + 1 else v)

/-- `_insert_at`, container.py:411-455. -/
def Cont.insertAt (c : Cont) (idx : Nat) (k : SKey) (item : Item) : Except Err Cont :=
  if idx ≥ c.body.length then .error .valueError
  else
    let body := if 0 < idx && !item.isTableLike then addTrailNl (idx - 1) c.body else c.body
    let m := shiftFrom idx c.map
    let m := match mapGet k.key m with
      | some is => mapSet k.key (is ++ [idx]) m
      | none => mapSet k.key [idx] m
    .ok (.mk (body.insertIdx idx (.mk (some k) item)) m (dictSet k.key c.dict) c.parsed c.tableKeys)

/-- write the empty slot at the given positions -/
def nullAt (is : List Nat) (b : List Entry) : List Entry :=
  is.foldl (fun b i => b.set i Entry.nullEntry) b

/-- `remove`, container.py:345-362. -/
def Cont.remove (c : Cont) (k : Str) : Except Err Cont :=
  match mapGet k c.map with
  | none => .error .nonExistentKey
  | some is => .ok (.mk (nullAt is c.body) (mapDel k c.map) (dictDel k c.dict) c.parsed c.tableKeys)

/-- `_remove_at`, container.py:326-343. -/
def Cont.removeAt (c : Cont) (idx : Nat) : Except Err Cont :=
  match c.body[idx]? with
  | none => .error .indexError
  | some e =>
    match e.key with
    | none => .error .nonExistentKey
    | some k =>
      match mapGet k.key c.map with
      | none => .error .nonExistentKey
      | some is =>
        let b := c.body.set idx Entry.nullEntry
        if is.length > 1 then
          .ok (.mk b (mapSet k.key (is.erase idx) c.map) c.dict c.parsed c.tableKeys)
        else .ok (.mk b (mapDel k.key c.map) (dictDel k.key c.dict) c.parsed c.tableKeys)

/-- The AoT part of `_replace` used by `append`, container.py:218-220, 642-650, 652-726, for a new value that
is an array of tables replacing a table: the old key keeps its position, the index entry moves to the end. -/
def Cont.replaceByAoT (c : Cont) (k : SKey) (v : Item) : Except Err Cont :=
  match mapGet k.key c.map with
  | none => .error .nonExistentKey
  | some [] => .error .indexError
  | some (idx :: others) =>
    let b := (nullAt others c.body).set idx (.mk (some k) v.invalidate)
    .ok (.mk b (mapSet k.key [idx] (mapDel k.key c.map)) c.dict c.parsed c.tableKeys)

/-! ## append -/

/-- effects of `append` on the new item itself, container.py:174-192: the name, and for a container that is not
being parsed the header spelling and the blank line before a table. -/
def Cont.prepare (c : Cont) (key : Option SKey) (item : Item) : Except Err Item :=
  match (if item.isTableLike && item.name?.isNone then key.map fun k => item.setName k.key else some item) with
  | none => .error .attributeError
  | some (.table tb) =>
    let tb := if c.parsed then tb else tb.invalidate
    if !c.body.isEmpty && !(c.parsed || !tb.trivia.indent.isEmpty || c.prevWs) && !isDottedKey key then
      .ok (.table (tb.setTrivia { tb.trivia with indent := [10] }))
    else .ok (.table tb)
  | some (.aot ts t n p) =>
    if !c.body.isEmpty && !c.parsed then
      match invalidateAll ts with
      | [] => .ok (.aot [] t n p)
      | h :: r =>
        if hasNl h.trivia.indent || c.prevWs then .ok (.aot (h :: r) t n p)
        else .ok (.aot (h.setTrivia { h.trivia with indent := 10 :: h.trivia.indent } :: r) t n p)
    else .ok (.aot ts t n p)
  | some i => .ok i

/-- the end of `append`, container.py:275-301 -/
def Cont.appendTail (c : Cont) (key : Option SKey) (item : Item) : Except Err Cont :=
  match key with
  | some k =>
    if !c.body.isEmpty && !c.parsed && (!item.isTableLike || k.dotted) then
      let i := c.lastIndexBeforeTable
      if i < c.body.length then c.insertAt i k item
      else
        (Cont.mk (addTrailNl (c.body.length - 1) c.body) c.map c.dict c.parsed c.tableKeys).rawAppend key item
    else c.rawAppend key item
  | none => c.rawAppend key item

/-- the item at the last position of a key, with its body entry: `current_body_element`, container.py:194-201 -/
def Cont.lastEntry (c : Cont) (k : Str) : Option (Nat × Entry) :=
  match mapGet k c.map with
  | none => none
  | some is =>
    match is.getLast? with
    | none => none
    | some i => (c.body[i]?).map fun e => (i, e)

/-- `[item]` of the positions of one key that are tables -/
def tablesAt (b : List Entry) (is : List Nat) : List Tbl :=
  is.filterMap fun i => match b[i]? with
    | some e => (match e.v with | .table tb => some tb | _ => none)
    | none => none

/-- a loop that stops at the first exception -/
def foldE {α β : Type} (f : β → α → Except Err β) : β → List α → Except Err β
  | b, [] => .ok b
  | b, a :: r =>
    match f b a with
    | .error e => .error e
    | .ok b' => foldE f b' r

mutual
/-- `Container.append` for a single key (or none), container.py:160-301. `al` tells that the container is the
scratch container of an `OutOfOrderTableProxy`, whose items are shared with the document. -/
def Cont.append1 : Nat → (al validate : Bool) → Cont → Option SKey → Item → Except Err (Cont × Bool)
  | 0, _, _, _, _, _ => .error .fuel
  | n + 1, al, validate, c, key, item =>
    if al && !c.parsed then .error .unmodelled else
    match c.prepare key item with
    | .error e => .error e
    | .ok item =>
    match key with
    | none => (c.appendTail key item).map (·, false)
    | some k =>
      match Cont.has n c k.key with
      | .error e => .error e
      | .ok false => (c.appendTail key item).map (·, false)
      | .ok true =>
        match c.lastEntry k.key with
        | none => .error .indexError
        | some (i, cur) =>
          let moved := i + 1 != c.body.length
          -- ghost: the name part is spelled differently from the place where the text goes
          let respelt := cur.key.map SKey.orig != some k.orig
          match item with
          | .table tb =>
            if !cur.v.isTableLike then .error .keyAlreadyPresent
            else if tb.isAot then
              if al then .error .unmodelled else
              match cur.v with
              | .aot ts t nm p =>
                .ok (.mk (c.body.set i (.mk cur.key (.aot (aotAppend t p ts tb) t nm p))) c.map c.dict
                  c.parsed c.tableKeys, true)
              | .table ct => (c.replaceByAoT k (mkAoT [ct, tb] none c.parsed)).map (·, true)
              | _ => .error .keyAlreadyPresent
            else
              match cur.v with
              | .table ct =>
                if ct.isSuper then
                  if tb.isSuper then
                    let keyNe := match c.tableKeys.getLast? with
                      | some l => some (!(l == k.key))
                      | none => none
                    match (if k.dotted || isDottedKey cur.key then some true else keyNe) with
                    | none => .error .indexError
                    | some true =>
                      let idx := if k.dotted && !c.parsed then c.lastIndexBeforeTable else c.body.length
                      match (if idx < c.body.length then c.insertAt idx k item else c.rawAppend key item) with
                      | .error e => .error e
                      | .ok c' =>
                        match (if validate then Cont.has n c' k.key else .ok true) with
                        | .error e => .error e
                        | .ok _ => .ok (c', decide (idx < c.body.length))
                    | some false =>
                      -- `for k, v in item.value.body: current.append(k, v)`, container.py:252-253
                      match foldE (fun (p : Tbl × Bool) (e : Entry) =>
                          (Tbl.append1 n al p.1 e.key e.v).map fun q => (q.1, p.2 || q.2))
                          (ct.deepCopy, false) tb.cont.body with
                      | .error e => .error e
                      | .ok (ct', mv) =>
                        .ok (.mk (c.body.set i (.mk cur.key (.table ct'))) c.map c.dict c.parsed c.tableKeys,
                          moved || respelt || mv)
                  else if isDottedKey cur.key then .error .tomlkit
                  else (c.appendTail key item).map (·, false)
                else if !tb.isSuper then .error .keyAlreadyPresent
                else (c.appendTail key item).map (·, false)
              | _ => .error .keyAlreadyPresent
          | .aot ts _ _ _ =>
            match cur.v with
            | .aot ts' t' n' p' =>
              if al then .error .unmodelled else
              .ok (.mk (c.body.set i (.mk cur.key (.aot (ts.foldl (aotAppend t' p') ts') t' n' p'))) c.map c.dict
                c.parsed c.tableKeys, moved || respelt || (spaceRun t'.indent).isSome)
            | _ => .error .keyAlreadyPresent
          | _ => .error .keyAlreadyPresent

/-- `key in container`: `Mapping.__contains__` reads `self[key]`, and for a key with several positions this
builds an `OutOfOrderTableProxy`, which may raise; container.py:457-472, 619-626. It is also
`_validate_out_of_order_table(key)`, container.py:150-158, which builds the proxy for a tuple and does nothing
otherwise. -/
def Cont.has : Nat → Cont → Str → Except Err Bool
  | 0, _, _ => .error .fuel
  | n + 1, c, k =>
    match mapGet k c.map with
    | none => .ok false
    | some [_] => .ok true
    | some is => (Cont.mkProxy n c is).map fun _ => true

/-- `OutOfOrderTableProxy.__init__`, container.py:789-808: the scratch container with the entries of all tables
at the given positions, validated key by key (container.py:151-155). -/
def Cont.mkProxy : Nat → Cont → List Nat → Except Err Cont
  | 0, _, _ => .error .fuel
  | n + 1, c, is =>
    match foldE (fun p (e : Entry) => (Cont.append1 n true false p e.key e.v).map Prod.fst) (Cont.empty true)
        ((tablesAt c.body is).flatMap fun t => t.cont.body) with
    | .error e => .error e
    | .ok p =>
      match foldE (fun _ k => (Cont.has n p k).map fun _ => ()) () (p.map.map (·.1)) with
      | .error e => .error e
      | .ok _ => .ok p

/-- `Table.append` for a key object, items.py:1587-1617. -/
def Tbl.append1 : Nat → (al : Bool) → Tbl → Option SKey → Item → Except Err (Tbl × Bool)
  | 0, _, _, _, _ => .error .fuel
  | n + 1, al, t, key, item =>
    match Cont.append1 n al true t.cont key item with
    | .error e => .error e
    | .ok (c, mv) =>
      -- `_item = self._value[key]` may build a proxy
      match (match key with | some k => Cont.has n c k.key | none => .ok true) with
      | .error e => .error e
      | .ok _ =>
        match spaceRun t.trivia.indent with
        | none => .ok (t.setCont c, mv)
        | some ind =>
          if al && !item.isWhitespace then .error .unmodelled else
          -- position of `_item`; a proxy and the Python `bool` of a boolean have no trivia
          let pos := match key with
            | some k => (match mapGet k.key c.map with | some [i] => some i | _ => none)
            | none => some (c.body.length - 1)
          match pos.bind fun i => (c.body[i]?).map fun e => (i, e) with
          | none => .error .attributeError
          | some (i, e) =>
            if e.v.isWhitespace then .ok (t.setCont c, mv)
            else if e.v.isBool && key.isSome then .error .attributeError
            else .ok (t.setCont (.mk (setTriviaAt i (fun tr => { tr with indent := insertIndent ind tr.indent })
                c.body) c.map c.dict c.parsed c.tableKeys), true)
end

/-! ## Dotted keys -/

/-- `Table(Container(True), Trivia(), False, is_super_table=True)` holding one entry, container.py:118-133. The
name is set when the table is appended (container.py:174-175). -/
def dottedTable (k : SKey) (v : Item) (name : Option Str) : Tbl :=
  .mk (.mk [.mk (some k) v] [(k.key, [0])] [k.key] true (if v.isTable then [k.key] else [])) {} false (some true)
    name none

/-- the chain of tables below the first part of a dotted key, container.py:122-131; `sep` goes to the last part -/
def dottedChain (name : Option Str) : List SKey → Str → Item → Option Tbl
  | [], _, _ => none
  | [k], sep, v => some (dottedTable { k with sep := sep } v name)
  | k :: r, sep, v =>
    (dottedChain (some k.key) r sep v).map fun t => dottedTable { k with dotted := true } (.table t) name

mutual
/-- Number of nodes of an item, not looking into arrays and inline tables; it only serves to bound the recursion
of `append`. -/
def Item.size : Item → Nat
  | .table tb => 1 + tb.size
  | .aot ts _ _ _ => 1 + ts.tablesSize
  | _ => 1
termination_by structural i => i
@[inherit_doc Item.size]
def Tbl.size : Tbl → Nat
  | .mk c _ _ _ _ _ => 1 + c.size
termination_by structural t => t
@[inherit_doc Item.size]
def Cont.size : Cont → Nat
  | .mk b _ _ _ _ => 1 + b.entriesSize
termination_by structural c => c
@[inherit_doc Item.size]
def _root_.List.entriesSize : List Entry → Nat
  | [] => 0
  | e :: r => e.size + r.entriesSize
termination_by structural e => e
@[inherit_doc Item.size]
def Entry.size : Entry → Nat
  | .mk _ v => 1 + v.size
termination_by structural e => e
@[inherit_doc Item.size]
def _root_.List.tablesSize : List Tbl → Nat
  | [] => 0
  | t :: r => t.size + r.tablesSize
termination_by structural t => t
end

/-- Fuel that suffices for appending `v` to `c`. -/
def fuelFor (c : Cont) (v : Item) : Nat := 3 * (c.size + v.size) + 6

/-- `Container.append` for a key object, container.py:160-301 with `_handle_dotted_key`, container.py:118-134:
a dotted key becomes a chain of super tables; the value must not be a table. -/
def Cont.append (validate : Bool) (c : Cont) (key : Option Key) (v : Item) : Except Err (Cont × Bool) :=
  match key with
  | none => Cont.append1 (fuelFor c v) false validate c none v
  | some key =>
    match key.parts with
    | [] => .error .valueError
    | [k] => Cont.append1 (fuelFor c v) false validate c (some k) v
    | k :: r =>
      if v.isTableLike then .error .tomlkit
      else match dottedChain none r key.sep v with
        | none => .error .valueError
        | some t =>
          Cont.append1 (fuelFor c (.table t)) false true c (some { k with dotted := true }) (.table t)

/-- `Table.raw_append` for a key object, items.py:1619-1634. -/
def Tbl.rawAppend (t : Tbl) (key : Option Key) (v : Item) : Except Err (Tbl × Bool) :=
  match Cont.append false t.cont key v with
  | .error e => .error e
  | .ok (c, mv) =>
    -- `_item = self._value[key]` may build a proxy
    match (match key.map Key.parts with
        | some (k :: _) => Cont.has (fuelFor c (.null {})) c k.key
        | _ => .ok true) with
    | .error e => .error e
    | .ok _ => .ok (t.setCont c, mv)

/-- `_validate_out_of_order_table()` on all keys, container.py:150-158. -/
def Cont.validateAll (c : Cont) : Except Err Unit :=
  foldE (fun _ k => (Cont.has (fuelFor c (.null {})) c k).map fun _ => ()) () (c.map.map (·.1))

mutual
/-- `Container.parsing(False)`, container.py:87-95: tables and arrays of tables, not inline tables. -/
def Cont.stopParsing : Cont → Cont
  | .mk b m d _ tk => .mk b.stopParsingEntries m d false tk
termination_by structural c => c
@[inherit_doc Cont.stopParsing]
def _root_.List.stopParsingEntries : List Entry → List Entry
  | [] => []
  | e :: r => e.stopParsing :: r.stopParsingEntries
termination_by structural es => es
@[inherit_doc Cont.stopParsing]
def Entry.stopParsing : Entry → Entry
  | .mk k v => .mk k v.stopParsing
termination_by structural e => e
@[inherit_doc Cont.stopParsing]
def Item.stopParsing : Item → Item
  | .table tb => .table tb.stopParsing
  | .aot ts t n p => .aot ts.stopParsingTables t n p
  | i => i
termination_by structural i => i
@[inherit_doc Cont.stopParsing]
def Tbl.stopParsing : Tbl → Tbl
  | .mk c t a s n d => .mk c.stopParsing t a s n d
termination_by structural t => t
@[inherit_doc Cont.stopParsing]
def _root_.List.stopParsingTables : List Tbl → List Tbl
  | [] => []
  | t :: r => t.stopParsing :: r.stopParsingTables
termination_by structural ts => ts
end

end Tomlkit
