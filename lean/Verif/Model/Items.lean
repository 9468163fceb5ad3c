import Verif.Model.Str
/-!
# Items: the document tree and its rendering (items.py, rendering part of container.py)
-/
namespace Tomlkit

/-- `Trivia`, items.py:313-329. -/
structure Trivia where
  indent : Str := []
  commentWs : Str := []
  comment : Str := []
  trail : Str := [10]
deriving DecidableEq, Repr, Inhabited

/-- `KeyType`, items.py:332-342. -/
inductive KeyType | bare | basic | literal
deriving DecidableEq, Repr

/-- `KeyType.value`, items.py:340-342. -/
def KeyType.value : KeyType → Str
  | .bare => []
  | .basic => [34]
  | .literal => [39]

/-- `SingleKey`, items.py:389-437: name, quoting style, separator text, original spelling and the
`_dotted` flag ("followed by other keys"). -/
structure SKey where
  key : Str
  t : KeyType
  sep : Str
  orig : Str
  dotted : Bool := false
deriving DecidableEq, Repr

/-- A key: `SingleKey` or `DottedKey` (items.py:440-460). `DottedKey._dotted` is never set. -/
inductive Key
  | single (k : SKey)
  | dotted (ks : List SKey) (sep : Str) (orig : Str)
deriving DecidableEq, Repr

/-- `Key.__iter__`, items.py:366-367: the list of single keys. -/
def Key.parts : Key → List SKey
  | .single k => [k]
  | .dotted ks _ _ => ks

/-- `Key.as_string`, items.py:378-380. -/
def Key.asString : Key → Str
  | .single k => k.orig
  | .dotted _ _ o => o

/-- `Key.sep` attribute. -/
def Key.sep : Key → Str
  | .single k => k.sep
  | .dotted _ s _ => s

/-- assignment `key.sep = s`. -/
def Key.setSep (s : Str) : Key → Key
  | .single k => .single { k with sep := s }
  | .dotted ks _ o => .dotted ks s o

/-- `Key.is_multi`, items.py:374-376. -/
def Key.isMulti (k : Key) : Bool := k.parts.length > 1

/-- `".".join(parts)`. -/
def joinDot : List Str → Str
  | [] => []
  | [s] => s
  | s :: t => s ++ 46 :: joinDot t

/-- `Key.key`: items.py:413 and 454. -/
def Key.key : Key → Str
  | .single k => k.key
  | .dotted ks _ _ => joinDot (ks.map SKey.key)

/-- `Key.concat`, items.py:369-372, and `DottedKey.__init__`, items.py:441-454, with `original = None`. -/
def Key.concat (a b : Key) : Key :=
  let ks := a.parts ++ b.parts
  .dotted ks a.sep (joinDot (ks.map SKey.orig))

/-- Key equality (`SingleKey.__eq__`, `DottedKey.__eq__`, items.py:433-437, 459-460): same class, same names. -/
def Key.eqv : Key → Key → Bool
  | .single a, .single b => a.key == b.key
  | .dotted a _ _, .dotted b _ _ => a.map SKey.key == b.map SKey.key
  | _, _ => false

/-- `StringType`, items.py:231-239. -/
inductive StrType | slb | mlb | sll | mll
deriving DecidableEq, Repr

/-- `StringType.value`. -/
def StrType.value : StrType → Str
  | .slb => [34]
  | .mlb => [34, 34, 34]
  | .sll => [39]
  | .mll => [39, 39, 39]
/-- `StringType.unit`, items.py:275-276. -/
def StrType.unit : StrType → Chr
  | .slb | .mlb => 34
  | .sll | .mll => 39
/-- `StringType.is_basic`, items.py:278-279. -/
def StrType.isBasic : StrType → Bool
  | .slb | .mlb => true
  | _ => false
/-- `StringType.is_multiline`, items.py:287-288 (`is_singleline` is its negation, 284-285). -/
def StrType.isMultiline : StrType → Bool
  | .mlb | .mll => true
  | _ => false
/-- `StringType.toggle`, items.py:290-296. -/
def StrType.toggle : StrType → StrType
  | .slb => .mlb
  | .mlb => .slb
  | .sll => .mll
  | .mll => .sll
/-- `StringType.select(literal, multiline)`, items.py:241-248. -/
def StrType.select : Bool → Bool → StrType
  | false, false => .slb
  | false, true => .mlb
  | true, false => .sll
  | true, true => .mll

/-- A calendar date (`datetime.date`). -/
structure PDate where
  year : Nat
  month : Nat
  day : Nat
deriving DecidableEq, Repr

/-- A time of day (`datetime.time` without tzinfo). -/
structure PTime where
  hour : Nat
  minute : Nat
  second : Nat
  micro : Nat
deriving DecidableEq, Repr

/-- A `datetime.datetime`; `tz` is the UTC offset in minutes, if any (the name of the `timezone` object is not modelled). -/
structure PDateTime where
  date : PDate
  time : PTime
  tz : Option Int
deriving DecidableEq, Repr

mutual
/-- The items of a document (classes of items.py). A float carries the text given to `float()`. -/
inductive Item
  /-- `Whitespace`, items.py:535-572 -/
  | ws (s : Str) (fixed : Bool)
  /-- `Comment`, items.py:575-590 -/
  | comment (t : Trivia)
  /-- `Integer`, items.py:593-684 -/
  | integer (v : Int) (t : Trivia) (raw : Str)
  /-- `Float`, items.py:687-763 -/
  | float (txt : Str) (t : Trivia) (raw : Str)
  /-- `Bool`, items.py:766-809 -/
  | bool (v : Bool) (t : Trivia)
  /-- `DateTime`, items.py:812-961 -/
  | datetime (v : PDateTime) (t : Trivia) (raw : Str)
  /-- `Date`, items.py:964-1022 -/
  | date (v : PDate) (t : Trivia) (raw : Str)
  /-- `Time`, items.py:1025-1095 -/
  | time (v : PTime) (t : Trivia) (raw : Str)
  /-- `String`, items.py:1779-1832 -/
  | str (ty : StrType) (v : Str) (orig : Str) (t : Trivia)
  /-- `Array`, items.py:1132-1429; the `list` part is `AGroup.values` of the groups -/
  | array (gs : List AGroup) (t : Trivia) (multiline : Bool)
  /-- `InlineTable`, items.py:1687-1776 -/
  | inline (c : Cont) (t : Trivia) (new : Bool)
  /-- `Table`, items.py:1550-1684 -/
  | table (tb : Tbl)
  /-- `AoT`, items.py:1835-1941 -/
  | aot (ts : List Tbl) (t : Trivia) (name : Option Str) (parsed : Bool)
  /-- `Null`, items.py:1944-1967 -/
  | null (t : Trivia)
/-- `_ArrayItemGroup`, items.py:1098-1129: `noval` is a group whose value is `None`. -/
inductive AGroup
  | noval (indent comma : Option Str) (cmt : Option Trivia)
  | val (indent : Option Str) (v : Item) (comma : Option Str) (cmt : Option Trivia)
/-- The state of a `Table`: container, trivia, `_is_aot_element`, `_is_super_table`, `name`, `display_name`. -/
inductive Tbl
  | mk (c : Cont) (t : Trivia) (isAot : Bool) (isSuper : Option Bool) (name display : Option Str)
/-- The state of a `Container` (container.py:36-40): `_body`, `_map` (a single index is a one-element list,
a tuple of indices a longer one), the keys of the underlying `dict` in order, `_parsed`, `_table_keys`. -/
inductive Cont
  | mk (body : List Entry) (map : List (Str × List Nat)) (dict : List Str) (parsed : Bool)
      (tableKeys : List Str)
/-- One element `(key, item)` of `Container._body`. -/
inductive Entry
  | mk (key : Option SKey) (v : Item)
end

/-- fields of `Entry` -/
def Entry.key : Entry → Option SKey | .mk k _ => k
@[inherit_doc Entry.key] def Entry.v : Entry → Item | .mk _ v => v
/-- fields of `Cont` -/
def Cont.body : Cont → List Entry | .mk b _ _ _ _ => b
@[inherit_doc Cont.body] def Cont.map : Cont → List (Str × List Nat) | .mk _ m _ _ _ => m
@[inherit_doc Cont.body] def Cont.dict : Cont → List Str | .mk _ _ d _ _ => d
@[inherit_doc Cont.body] def Cont.parsed : Cont → Bool | .mk _ _ _ p _ => p
@[inherit_doc Cont.body] def Cont.tableKeys : Cont → List Str | .mk _ _ _ _ t => t
/-- fields of `Tbl` -/
def Tbl.cont : Tbl → Cont | .mk c _ _ _ _ _ => c
@[inherit_doc Tbl.cont] def Tbl.trivia : Tbl → Trivia | .mk _ t _ _ _ _ => t
@[inherit_doc Tbl.cont] def Tbl.isAot : Tbl → Bool | .mk _ _ a _ _ _ => a
@[inherit_doc Tbl.cont] def Tbl.superFlag : Tbl → Option Bool | .mk _ _ _ s _ _ => s
@[inherit_doc Tbl.cont] def Tbl.name : Tbl → Option Str | .mk _ _ _ _ n _ => n
@[inherit_doc Tbl.cont] def Tbl.display : Tbl → Option Str | .mk _ _ _ _ _ d => d
/-- replace the container of a table -/
def Tbl.setCont (c : Cont) : Tbl → Tbl | .mk _ t a s n d => .mk c t a s n d
/-- replace the trivia of a table -/
def Tbl.setTrivia (t : Trivia) : Tbl → Tbl | .mk c _ a s n d => .mk c t a s n d

@[simp] theorem Entry.key_mk (k v) : (Entry.mk k v).key = k := rfl
@[simp] theorem Entry.v_mk (k v) : (Entry.mk k v).v = v := rfl
@[simp] theorem Cont.body_mk (a b c d e) : (Cont.mk a b c d e).body = a := rfl
@[simp] theorem Cont.map_mk (a b c d e) : (Cont.mk a b c d e).map = b := rfl
@[simp] theorem Cont.dict_mk (a b c d e) : (Cont.mk a b c d e).dict = c := rfl
@[simp] theorem Cont.parsed_mk (a b c d e) : (Cont.mk a b c d e).parsed = d := rfl
@[simp] theorem Cont.tableKeys_mk (a b c d e) : (Cont.mk a b c d e).tableKeys = e := rfl
@[simp] theorem Tbl.cont_mk (a b c d e f) : (Tbl.mk a b c d e f).cont = a := rfl
@[simp] theorem Tbl.trivia_mk (a b c d e f) : (Tbl.mk a b c d e f).trivia = b := rfl
@[simp] theorem Tbl.isAot_mk (a b c d e f) : (Tbl.mk a b c d e f).isAot = c := rfl
@[simp] theorem Tbl.superFlag_mk (a b c d e f) : (Tbl.mk a b c d e f).superFlag = d := rfl
@[simp] theorem Tbl.name_mk (a b c d e f) : (Tbl.mk a b c d e f).name = e := rfl
@[simp] theorem Tbl.display_mk (a b c d e f) : (Tbl.mk a b c d e f).display = f := rfl

/-- `isinstance(v, Table)`; also `Item.is_table`, items.py:516-517. -/
def Item.isTable : Item → Bool | .table _ => true | _ => false
/-- `isinstance(v, AoT)`; also `Item.is_aot`, items.py:522-523. -/
def Item.isAoT : Item → Bool | .aot .. => true | _ => false
/-- `isinstance(v, (AoT, Table))`. -/
def Item.isTableLike (i : Item) : Bool := i.isTable || i.isAoT
/-- `isinstance(v, Whitespace)`. -/
def Item.isWhitespace : Item → Bool | .ws .. => true | _ => false
/-- `isinstance(v, Null)`. -/
def Item.isNull : Item → Bool | .null _ => true | _ => false
/-- `isinstance(v, Comment)`. -/
def Item.isComment : Item → Bool | .comment _ => true | _ => false

/-- `Item.trivia`. `Whitespace.trivia` raises (items.py:553-555); callers test for white space first, and the
model returns the default there. -/
def Item.trivia : Item → Trivia
  | .ws .. => {}
  | .comment t | .integer _ t _ | .float _ t _ | .bool _ t | .datetime _ t _ | .date _ t _ | .time _ t _
  | .str _ _ _ t | .array _ t _ | .inline _ t _ | .aot _ t _ _ | .null t => t
  | .table tb => tb.trivia
/-- replace the trivia of an item (assignments to `item.trivia.x`). -/
def Item.setTrivia (t : Trivia) : Item → Item
  | .ws s f => .ws s f
  | .comment _ => .comment t
  | .integer v _ r => .integer v t r
  | .float v _ r => .float v t r
  | .bool v _ => .bool v t
  | .datetime v _ r => .datetime v t r
  | .date v _ r => .date v t r
  | .time v _ r => .time v t r
  | .str ty v o _ => .str ty v o t
  | .array g _ m => .array g t m
  | .inline c _ n => .inline c t n
  | .table tb => .table (tb.setTrivia t)
  | .aot ts _ n p => .aot ts t n p
  | .null _ => .null t

/-- The `Null()` object, items.py:1949-1950. -/
def Item.nullItem : Item := .null { trail := [] }
/-- The body slot left by a deletion: `(None, Null())`. -/
def Entry.nullEntry : Entry := .mk none Item.nullItem

/-! ## Container look-ups used by rendering -/

/-- `dict` look-up in `_map`. -/
def mapGet (k : Str) : List (Str × List Nat) → Option (List Nat)
  | [] => none
  | (k', v) :: r => if k' == k then some v else mapGet k r

/-- `Table.is_super_table`, items.py:1636-1645: the flag if it is set; otherwise "exactly one key, and it is a
table". A key with several positions is read through a proxy object that is no `Table`. -/
def Tbl.isSuper (tb : Tbl) : Bool :=
  match tb.superFlag with
  | some b => b
  | none =>
    match tb.cont.dict with
    | [k] =>
      match mapGet k tb.cont.map with
      | some [i] => ((tb.cont.body[i]?).map fun e => e.v.isTableLike).getD false
      | _ => false
    | _ => false

/-- `not isinstance(v, (Table, AoT, Whitespace, Null))`, container.py:507. -/
def Item.isPlain (i : Item) : Bool := !(i.isTable || i.isAoT || i.isWhitespace || i.isNull)

/-- `k.is_dotted()`; only asked for entries with a key. -/
def isDottedKey : Option SKey → Bool
  | some k => k.dotted
  | none => false
/-- `key.as_string()`; only asked for entries with a key. -/
def keyText : Option SKey → Str
  | some k => k.orig
  | none => []

/-- text of an optional part of an array group -/
def optStr : Option Str → Str
  | some s => s
  | none => []
/-- `Comment.as_string`, items.py:584-587. -/
def commentText (t : Trivia) : Str := t.indent ++ t.comment ++ t.trail
/-- text of the comment of an array group -/
def optComment : Option Trivia → Str
  | some t => commentText t
  | none => []

/-- `_key = prefix + "." + _key` when there is a prefix, container.py:503-504, 554-555, 601-602. -/
def withPrefix (pfx : Option Str) (k : Str) : Str :=
  match pfx with
  | some p => p ++ 46 :: k
  | none => k

/-- Position of the last entry with a key, `last_item_idx`, items.py:1728-1735. -/
def lastKeyIdx (es : List Entry) : Option Nat :=
  (es.zipIdx.reverse.find? fun p => p.1.key.isSome).map (·.2)

/-- `s.replace("\n", "")`. -/
def dropNl (s : Str) : Str := s.filter (· != 10)

/-- The text before the value of a rendered key/value line, container.py:604-608. -/
def simpleHead (k : SKey) (t : Trivia) (pfx : Option Str) : Str :=
  t.indent ++ withPrefix pfx k.orig ++ k.sep
/-- The text after the value of a rendered key/value line, container.py:609-611. -/
def simpleTail (t : Trivia) : Str := t.commentWs ++ t.comment ++ t.trail

/-- Opening and closing brackets of a table header, container.py:511-513. -/
def headOpen (isAot : Bool) : Str := if isAot then [91, 91] else [91]
@[inherit_doc headOpen] def headClose (isAot : Bool) : Str := if isAot then [93, 93] else [93]

/-- Is the header of a table written? container.py:506-510. -/
def showsHeader (key : SKey) (tb : Tbl) : Bool :=
  !tb.isSuper || (tb.cont.body.any (fun e => e.v.isPlain) && !key.dotted)

/-- `_key` of `_render_table`, container.py:498-504. -/
def tableKeyText (key : SKey) (pfx : Option Str) (tb : Tbl) : Str :=
  match tb.display with
  | some d => d
  | none => withPrefix pfx key.orig

/-- The header text of a table (or what stands for it), container.py:506-531. -/
def tableHeader (key : SKey) (pfx : Option Str) (tb : Tbl) : Str :=
  if showsHeader key tb then
    tb.trivia.indent ++ headOpen tb.isAot ++ tableKeyText key pfx tb ++ headClose tb.isAot ++
      tb.trivia.commentWs ++ tb.trivia.comment ++ tb.trivia.trail ++
      (if !hasNl tb.trivia.trail && tb.cont.dict.length > 0 then [10] else [])
  else if tb.trivia.indent = [10] then [10] else []

/-- The header of an array-of-tables element, container.py:569-577. -/
def aotHeader (key : Str) (t : Trivia) : Str :=
  t.indent ++ [91, 91] ++ key ++ [93, 93] ++ t.commentWs ++ t.comment ++ t.trail

mutual
/-- `as_string` of every item class: items.py:565, 584, 627, 721, 788, 884, 991, 1067, 1216-1233, 1647, 1804,
1930, 1963. -/
def Item.asString : Item → Str
  | .ws s _ => s
  | .comment t => commentText t
  | .integer _ _ raw => raw
  | .float _ _ raw => raw
  | .bool b _ => if b then t!"true" else t!"false"
  | .datetime _ _ raw => raw
  | .date _ _ raw => raw
  | .time _ _ raw => raw
  | .str ty _ o _ => ty.value ++ o ++ ty.value
  | .array gs t ml =>
    if !ml || gs.isEmpty then 91 :: (groupsStr gs ++ [93])
    else [91, 10] ++ (groupsMulti t.indent gs ++ (t.indent ++ [93]))
  | .inline c _ new => c.inlineString new
  | .table tb => tb.asString
  | .aot ts _ _ _ => aotStr ts
  | .null _ => []
termination_by structural i => i

/-- `"".join(v.as_string() for v in self._iter_items())`, items.py:1193-1195, 1113-1116, 1218. -/
def groupsStr : List AGroup → Str
  | [] => []
  | g :: r => g.asString ++ groupsStr r
termination_by structural g => g

/-- the items of one group in the order of `_ArrayItemGroup.__iter__`, items.py:1113-1116. -/
def AGroup.asString : AGroup → Str
  | .noval i c m => optStr i ++ (optStr c ++ optComment m)
  | .val i v c m => optStr i ++ (v.asString ++ (optStr c ++ optComment m))
termination_by structural g => g

/-- The loop of the multi-line form, items.py:1221-1230. -/
def groupsMulti (indent : Str) : List AGroup → Str
  | [] => []
  | g :: r => g.multiString indent ++ groupsMulti indent r
termination_by structural g => g

/-- One line of the multi-line form, items.py:1222-1227. -/
def AGroup.multiString (indent : Str) : AGroup → Str
  | .noval .. => []
  | .val _ v _ m =>
    indent ++ (t!"    " ++ (v.asString ++ ((if v.isNull then [] else [44]) ++ (optComment m ++ [10]))))
termination_by structural g => g

/-- `InlineTable.as_string`, items.py:1726-1765. -/
def Cont.inlineString (new : Bool) : Cont → Str
  | .mk b _ _ _ _ => inlineLoop new (lastKeyIdx b) b.length 0 [123] b ++ [125]
termination_by structural c => c

/-- The loop of `InlineTable.as_string`, items.py:1736-1761, on the text built so far. -/
def inlineLoop (new : Bool) (last : Option Nat) (len : Nat) (i : Nat) (buf : Str) : List Entry → Str
  | [] => buf
  | e :: r =>
    let piece := e.inlinePiece
    match e.key with
    | none =>
      let buf := if i == len - 1 then rstripChars (if new then t!", " else t!",") buf else buf
      inlineLoop new last len (i + 1) (buf ++ piece) r
    | some _ =>
      let buf := buf ++ piece
      let buf := match last with
        | some l => if i < l then buf ++ (if new then t!", " else t!",") else buf
        | none => buf
      inlineLoop new last len (i + 1) buf r
termination_by structural es => es

/-- What one entry contributes to an inline table, items.py:1744 and 1748-1756. -/
def Entry.inlinePiece : Entry → Str
  | .mk none v => v.asString
  | .mk (some k) v =>
    v.trivia.indent ++ (k.orig ++ ((if k.dotted then [46] else []) ++
      (k.sep ++ (v.asString ++ (v.trivia.comment ++ dropNl v.trivia.trail)))))
termination_by structural e => e

/-- `Table.as_string`, items.py:1647-1648. -/
def Tbl.asString : Tbl → Str
  | .mk c _ _ _ _ _ => c.asString
termination_by structural t => t

/-- `Container.as_string`, container.py:479-493. -/
def Cont.asString : Cont → Str
  | .mk b _ _ _ _ => bodyStr b
termination_by structural c => c

/-- The loop of `Container.as_string`, container.py:482-491. -/
def bodyStr : List Entry → Str
  | [] => []
  | e :: r => e.render none none ++ bodyStr r
termination_by structural es => es

/-- One entry: a table (with prefix `tp`), an array of tables (prefix `tp`), or a simple item (prefix `sp`):
the dispatch of container.py:483-491, with `_render_simple_item`, container.py:596-612. -/
def Entry.render (tp sp : Option Str) : Entry → Str
  | .mk none v => v.asString
  | .mk (some key) (.table tb) => tb.render key tp
  | .mk (some key) (.aot ts _ _ _) => aotRender (withPrefix tp key.orig) ts
  | .mk (some key) v => simpleHead key v.trivia sp ++ (v.asString ++ simpleTail v.trivia)
termination_by structural e => e

/-- `_render_table`, container.py:495-550. -/
def Tbl.render (key : SKey) (pfx : Option Str) : Tbl → Str
  | .mk c t a s n d =>
    let tb : Tbl := .mk c t a s n d
    tableHeader key pfx tb ++ c.renderBody key.dotted false (tableKeyText key pfx tb)
termination_by structural t => t

/-- The loops at container.py:533-549 (`_render_table`) and 579-592 (`_render_aot_table`, `inAot`). -/
def Cont.renderBody (keyDotted inAot : Bool) (key : Str) : Cont → Str
  | .mk b _ _ _ _ => tableBodyStr keyDotted inAot key b
termination_by structural c => c

@[inherit_doc Cont.renderBody]
def tableBodyStr (keyDotted inAot : Bool) (key : Str) : List Entry → Str
  | [] => []
  | e :: r =>
    -- a dotted super table directly inside a non-dotted table is rendered without prefix
    let tp := match e.v with
      | .table tb => if tb.isSuper && isDottedKey e.key && (inAot || !keyDotted) then none else some key
      | _ => some key
    let sp := if keyDotted && !inAot then some key else none
    e.render tp sp ++ tableBodyStr keyDotted inAot key r
termination_by structural es => es

/-- `_render_aot` and `_render_aot_table`, container.py:552-594. -/
def aotRender (key : Str) : List Tbl → Str
  | [] => []
  | t :: r => t.renderAotElem key ++ aotRender key r
termination_by structural ts => ts

/-- `_render_aot_table`, container.py:564-594. -/
def Tbl.renderAotElem (key : Str) : Tbl → Str
  | .mk c t _ _ _ _ => aotHeader key t ++ c.renderBody false true key
termination_by structural t => t

/-- `AoT.as_string`, items.py:1930-1935. -/
def aotStr : List Tbl → Str
  | [] => []
  | t :: r => t.asString ++ aotStr r
termination_by structural ts => ts
end

end Tomlkit
