import Verif.Model.Api
/-!
# container.py, items.py: item assignment and deletion

Keys are given as `str` (the usual case); assignment through a key object is not modelled here.
-/
namespace Tomlkit

/-- The trivia given to a replacing value, container.py:698-702. -/
def copyTrivia (old new : Trivia) : Trivia :=
  { indent := old.indent
    commentWs := if new.commentWs.isEmpty then old.commentWs else new.commentWs
    comment := if new.comment.isEmpty then old.comment else new.comment
    trail := old.trail }

/-- Position of the first table from position `i` on, container.py:688-690. -/
def firstTableFrom (b : List Entry) (i : Nat) : Option Nat :=
  ((b.drop i).findIdx? fun e => e.v.isTableLike).map (· + i)

/-- Does the value that is being replaced end with white space? container.py:716-720 -/
def replacedHasWs : Item → Bool
  | .table tb => match tb.cont.body.getLast? with
    | some e => e.v.isWhitespace
    | none => false
  | _ => false

/-- `value.append(None, Whitespace("\n"))` on a table, container.py:722-723: with no key nothing else happens. -/
def Tbl.addBlankLine (tb : Tbl) : Tbl :=
  tb.setCont (.mk (tb.cont.body ++ [.mk none (.ws [10] false)]) tb.cont.map tb.cont.dict tb.cont.parsed
    tb.cont.tableKeys)

/-- The end of `_replace_at`, container.py:705-726, for the value now at position `idx`: forget the header
spelling, and for a table add the cosmetic blank line. -/
def Cont.finishReplace (c : Cont) (old : Item) (nk : SKey) (idx : Nat) : Cont :=
  let b := c.body.modify idx fun e => .mk e.key e.v.invalidate
  match (b[idx]?).map Entry.v with
  | some (.table tb) =>
    let last := ((Cont.mk b c.map c.dict c.parsed c.tableKeys).prevIndex).getD 0
    let nextWs := idx < last && ((b[idx + 1]?).map fun e => e.v.isWhitespace).getD false
    let b := if (idx < last || replacedHasWs old) && !(nextWs || endsWithWs (.table tb)) then
        b.modify idx fun e => .mk e.key (.table tb.addBlankLine)
      else b
    .mk b c.map (dictSet nk.key c.dict) c.parsed c.tableKeys
  | _ => .mk b c.map c.dict c.parsed c.tableKeys

/-- `_replace_at(idx, new_key, value)` for a `str` key, container.py:652-726. -/
def Cont.replaceAt (c : Cont) (is : List Nat) (k : Str) (value : Item) : Except Err Cont :=
  match is with
  | [] => .error .indexError
  | idx :: others =>
    let b := nullAt others c.body
    match b[idx]? with
    | none => .error .indexError
    | some (.mk none _) => .error .attributeError
    | some (.mk (some ok) v) =>
      let differ := value.isTableLike != v.isTableLike
      let nk := if differ || k != ok.key then mkKey k else ok
      let m := mapSet nk.key [idx] (mapDel ok.key c.map)
      let d := if nk.key != ok.key then dictDel ok.key c.dict else c.dict
      let c1 : Cont := .mk b m d c.parsed c.tableKeys
      if differ then
        match c1.remove ok.key with
        | .error e => .error e
        | .ok c2 =>
          match firstTableFrom c2.body idx with
          | some i => (c2.insertAt i nk value).map fun c3 => c3.finishReplace v nk i
          | none =>
            match Cont.append true c2 (some (.single nk)) value with
            | .error e => .error e
            | .ok (c3, _) =>
              match mapGet nk.key c3.map with
              | some [i] => .ok (c3.finishReplace v nk i)
              | _ => .error .unmodelled
      else
        let value := if value.isWhitespace || value.isAoT then value
          else value.setTrivia (copyTrivia v.trivia value.trivia)
        .ok ((Cont.mk (b.set idx (.mk (some nk) value)) m d c.parsed c.tableKeys).finishReplace v nk idx)

/-- `Container.__setitem__` for a `str` key and a value that is an item, container.py:628-633, 642-650. -/
def Cont.setItem (c : Cont) (k : Str) (v : Item) : Except Err Cont :=
  match Cont.has (fuelFor c v) c k with
  | .error e => .error e
  | .ok false => (Cont.append true c (some (.single (mkKey k))) v).map Prod.fst
  | .ok true =>
    match mapGet k c.map with
    | none => .error .nonExistentKey
    | some is => c.replaceAt is k v

/-- `AbstractTable.__setitem__` on the container of a table whose own indent is `indent`, items.py:1526-1547: a new
key is indented like the table. -/
def Cont.setItemIndented (c : Cont) (indent : Str) (k : Str) (v : Item) : Except Err Cont :=
  match Cont.has (fuelFor c v) c k with
  | .error e => .error e
  | .ok isReplace =>
    match c.setItem k v with
    | .error e => .error e
    | .ok c' =>
      if isReplace || v.isWhitespace then .ok c'
      else
        match spaceRun indent with
        | none => .ok c'
        | some ind =>
          match mapGet k c'.map with
          | some [i] => .ok (.mk (setTriviaAt i (fun t => { t with indent := insertIndent ind t.indent }) c'.body)
              c'.map c'.dict c'.parsed c'.tableKeys)
          | _ => .error .unmodelled

/-- `Table.__setitem__`, items.py:1526-1547. -/
def Tbl.setItem (t : Tbl) (k : Str) (v : Item) : Except Err Tbl :=
  (t.cont.setItemIndented t.trivia.indent k v).map fun c => t.setCont c

/-- `InlineTable.__setitem__`, items.py:1767-1770, on the container and trivia of an inline table: comments of the
value are dropped. -/
def inlineSetItem (c : Cont) (t : Trivia) (k : Str) (v : Item) : Except Err Cont :=
  let v := if v.isWhitespace then v else v.setTrivia { v.trivia with comment := [] }
  c.setItemIndented t.indent k v

/-- `Container.item(key)` for a `str` key, container.py:457-472: the item, or for a table written in several places
the list of its positions (the proxy). -/
def Cont.item (c : Cont) (k : Str) : Except Err (Item ⊕ List Nat) :=
  match mapGet k c.map with
  | none => .error .nonExistentKey
  | some [i] => (match c.body[i]? with
    | some e => .ok (.inl e.v)
    | none => .error .indexError)
  | some is => .ok (.inr is)

end Tomlkit
