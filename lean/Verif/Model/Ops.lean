import Verif.Model.Edit
/-!
# Public operations on documents, tables and inline tables, anywhere in a document

A history of a document is a list of operations, each applied at a path. Only the operations that return normally are
followed; an exception ends the history.
-/
namespace Tomlkit

/-- What the container belongs to: the document itself, a `Table` or an `InlineTable`. -/
inductive Holder
  | doc
  | table (t : Trivia)
  | inline (t : Trivia) (new : Bool)

/-- `Table.append` for a key object or no key, items.py:1587-1617 (`Tbl.append1` with dotted keys). -/
def tableAppendKey (t : Trivia) (c : Cont) (key : Option Key) (v : Item) : Except Err Cont :=
  match Cont.append true c key v with
  | .error e => .error e
  | .ok (c', _) =>
    match (match key.map Key.parts with
        | some (k :: _) => Cont.has (fuelFor c' (.null {})) c' k.key
        | _ => .ok true) with
    | .error e => .error e
    | .ok _ =>
      match spaceRun t.indent with
      | none => .ok c'
      | some ind =>
        let pos := match key.map Key.parts with
          | some (k :: _) => (match mapGet k.key c'.map with | some [i] => some i | _ => none)
          | _ => some (c'.body.length - 1)
        match pos.bind fun i => (c'.body[i]?).map fun e => (i, e) with
        | none => .error .attributeError
        | some (i, e) =>
          if e.v.isWhitespace then .ok c'
          else if e.v.isBool && key.isSome then .error .attributeError
          else .ok (.mk (setTriviaAt i (fun tr => { tr with indent := insertIndent ind tr.indent }) c'.body) c'.map
            c'.dict c'.parsed c'.tableKeys)

/-- `Table.append` for a `str` key, items.py:1587-1617: the item itself is indented. In an indented table, when the key
was there before, the item may have been merged into another one: not modelled. -/
def tableAppendStr (t : Trivia) (c : Cont) (k : Str) (v : Item) : Except Err Cont :=
  match Cont.append true c (some (.single (mkKey k))) v with
  | .error e => .error e
  | .ok (c', _) =>
    match spaceRun t.indent with
    | none => .ok c'
    | some ind =>
      if v.isWhitespace then .ok c'
      else match mapGet k c.map, mapGet k c'.map with
        | none, some [i] => .ok (.mk (setTriviaAt i (fun tr => { tr with indent := insertIndent ind tr.indent }) c'.body)
            c'.map c'.dict c'.parsed c'.tableKeys)
        | _, _ => .error .unmodelled

/-- `InlineTable.append`, items.py:1702-1724. A dotted key puts the wrong name into the shadow dict of the table: not
modelled. -/
def inlineAppend (new : Bool) (c : Cont) (key : Option SKey) (v : Item) : Except Err Cont :=
  let v := if v.isWhitespace || v.isComment then v
    else
      let v := if v.trivia.indent.isEmpty && c.dict.length > 0 && !new
        then v.setTrivia { v.trivia with indent := [32] } else v
      v.setTrivia { v.trivia with comment := [] }
  (Cont.append true c (key.map .single) v).map Prod.fst

/-- The operations of a document or table. `pop`, `clear`, `update` and `setdefault` (`MutableMapping`) are made of
them. -/
inductive Op
  /-- `d[k] = v` -/
  | set (k : Str) (v : Item)
  /-- `d.append(k, v)`, `d.add(k, v)` -/
  | append (k : Str) (v : Item)
  /-- the same with a key object, possibly dotted -/
  | appendKey (key : Key) (v : Item)
  /-- `d.add(v)` for a comment or white space -/
  | add (v : Item)
  /-- `del d[k]`, `d.remove(k)` -/
  | remove (k : Str)

/-- The container after an operation. -/
def Op.run (h : Holder) (c : Cont) : Op → Except Err Cont
  | .set k v => match h with
    | .doc => c.setItem k v
    | .table t => c.setItemIndented t.indent k v
    | .inline t _ => inlineSetItem c t k v
  | .append k v => match h with
    | .doc => (Cont.append true c (some (.single (mkKey k))) v).map Prod.fst
    | .table t => tableAppendStr t c k v
    | .inline _ new => inlineAppend new c (some (mkKey k)) v
  | .appendKey key v => match h with
    | .doc => (Cont.append true c (some key) v).map Prod.fst
    | .table t => tableAppendKey t c (some key) v
    | .inline _ new => match key with
      | .single k => inlineAppend new c (some k) v
      | .dotted .. => .error .unmodelled
  | .add v =>
    -- `add`, container.py:105-116, items.py:1477-1486: anything else needs a key
    if v.isWhitespace || v.isComment then
      match h with
      | .doc => (Cont.append true c none v).map Prod.fst
      | .table t => tableAppendKey t c none v
      | .inline _ new => inlineAppend new c none v
    else .error .valueError
  | .remove k => c.remove k

/-- `d.item(k).comment(text)`, container.py:457-472 and items.py:494-502: the item in the document is changed. For a table
written in several places `item` gives a proxy, which has no `comment`. -/
def Cont.note (c : Cont) (k s : Str) : Except Err Cont :=
  match mapGet k c.map with
  | none => .error .nonExistentKey
  | some [i] =>
    .ok (.mk (c.body.modify i fun e => .mk e.key (e.v.withComment s)) c.map c.dict c.parsed c.tableKeys)
  | some _ => .error .attributeError

/-- One step into a document: the table under a key, or an element of the array of tables under a key. -/
inductive Step
  | key (k : Str)
  | elem (k : Str) (i : Nat)

/-- does a table have an entry with this name? -/
def Tbl.hasEntry (k : Str) (tb : Tbl) : Bool := tb.cont.body.any fun e => e.key.any fun key => key.key == k

/-- the table at a position -/
def tableAt (b : List Entry) (i : Nat) : Option (Option SKey × Tbl) :=
  match b[i]? with
  | some (.mk key (.table tb)) => some (key, tb)
  | _ => none

/-- The position of the part that holds `k`: `_tables_map` remembers the last one, container.py:798-804. -/
def partWith (k : Str) (b : List Entry) (is : List Nat) : Option Nat :=
  is.reverse.find? fun i => ((tableAt b i).map fun p => p.2.hasEntry k).getD false

/-- `OutOfOrderTableProxy.__setitem__` on a fresh proxy, container.py:823-835, for a value that is no table and does
not replace a table: the part that has the key, or the first part, is changed. (The scratch container of the proxy is
changed too; it is dropped here, and for such values this changes no shared item.) -/
def proxySet (c : Cont) (is : List Nat) (k : Str) (v : Item) : Except Err Cont :=
  match Cont.mkProxy (fuelFor c (.null {})) c is with
  | .error e => .error e
  | .ok p =>
    if v.isTableLike || p.body.any (fun e => e.v.isTableLike && e.key.any fun key => key.key == k) then .error .unmodelled
    else
      match (match partWith k c.body is with | some i => some i | none => is.head?) with
      | none => .error .indexError
      | some i =>
        match tableAt c.body i with
        | none => .error .indexError
        | some (key, tb) => (tb.cont.setItemIndented tb.trivia.indent k v).map fun c' =>
            .mk (c.body.set i (.mk key (.table (tb.setCont c')))) c.map c.dict c.parsed c.tableKeys

/-- `OutOfOrderTableProxy.__delitem__` on a fresh proxy, container.py:846-858, with `_remove_table`, container.py:837-844:
the key is removed from the last part that has it, and a part without keys is removed from the document. -/
def proxyRemove (c : Cont) (is : List Nat) (k : Str) : Except Err Cont :=
  match Cont.mkProxy (fuelFor c (.null {})) c is with
  | .error e => .error e
  | .ok _ =>
    match partWith k c.body is with
    | none => .error .nonExistentKey
    | some i =>
      match tableAt c.body i with
      | none => .error .indexError
      | some (key, tb) =>
        match tb.cont.remove k with
        | .error e => .error e
        | .ok c' =>
          let c1 := Cont.mk (c.body.set i (.mk key (.table (tb.setCont c')))) c.map c.dict c.parsed c.tableKeys
          if c'.dict.isEmpty && is.length > 1 then c1.removeAt i else .ok c1

/-- An operation on a table written in several places, through a fresh proxy. The proxy has no `append` or `add`. -/
def Op.runProxy (c : Cont) (is : List Nat) : Op → Except Err Cont
  | .set k v => proxySet c is k v
  | .remove k => proxyRemove c is k
  | _ => .error .attributeError

/-- Apply an operation at the end of a path: `doc[k]...`. A path through a table written in several places is not
modelled, unless it ends there. -/
def Cont.atPath (op : Op) : List Step → Holder → Cont → Except Err Cont
  | [], h, c => op.run h c
  | .key k :: r, _, c =>
    match mapGet k c.map with
    | none => .error .nonExistentKey
    | some [i] =>
      (match c.body[i]? with
      | some (.mk key (.table tb)) =>
        (Cont.atPath op r (.table tb.trivia) tb.cont).map fun c' =>
          .mk (c.body.set i (.mk key (.table (tb.setCont c')))) c.map c.dict c.parsed c.tableKeys
      | some (.mk key (.inline ci t new)) =>
        (Cont.atPath op r (.inline t new) ci).map fun c' =>
          .mk (c.body.set i (.mk key (.inline c' t new))) c.map c.dict c.parsed c.tableKeys
      | some _ => .error .typeError
      | none => .error .indexError)
    | some is => match r with
      | [] => op.runProxy c is
      | _ :: _ => .error .unmodelled
  | .elem k j :: r, _, c =>
    match mapGet k c.map with
    | none => .error .nonExistentKey
    | some [i] =>
      (match c.body[i]? with
      | some (.mk key (.aot ts t nm p)) =>
        (match ts[j]? with
        | some tb => (Cont.atPath op r (.table tb.trivia) tb.cont).map fun c' =>
            .mk (c.body.set i (.mk key (.aot (ts.set j (tb.setCont c')) t nm p))) c.map c.dict c.parsed c.tableKeys
        | none => .error .indexError)
      | some _ => .error .typeError
      | none => .error .indexError)
    | some _ => .error .unmodelled

/-- A history: operations at paths, one after the other. -/
def Cont.history (c : Cont) (ops : List (List Step × Op)) : Except Err Cont :=
  foldE (fun c p => Cont.atPath p.2 p.1 .doc c) c ops

end Tomlkit
