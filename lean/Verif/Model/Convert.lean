import Verif.Model.Edit
import Verif.Model.Arrays
/-!
# Conversion between Python values and items: item(), unwrap(), value, dumps()
-/
namespace Tomlkit

mutual
/-- A Python value built from the types `item()` knows, floats excepted. A `dict` is the list of its items in
insertion order; a tuple counts as a list. -/
inductive PyVal
  | bool (b : Bool)
  | int (n : Int)
  | str (s : Str)
  | date (d : PDate)
  | time (t : PTime)
  | datetime (d : PDateTime)
  | float (txt : Str)
  | none
  | list (l : List PyVal)
  | dict (l : List PyPair)
/-- one item of a `dict` -/
inductive PyPair
  | mk (k : Str) (v : PyVal)
end

/-- key of a dict item -/
def PyPair.key : PyPair → Str | .mk k _ => k
/-- value of a dict item -/
def PyPair.val : PyPair → PyVal | .mk _ v => v
@[simp] theorem PyPair.key_mk (k v) : (PyPair.mk k v).key = k := rfl
@[simp] theorem PyPair.val_mk (k v) : (PyPair.mk k v).val = v := rfl

/-- `isinstance(v, dict)` -/
def PyVal.isDict : PyVal → Bool
  | .dict _ => true
  | _ => false

/-- comparison of two `str`: by code points -/
def strLe : Str → Str → Bool
  | [], _ => true
  | _ :: _, [] => false
  | a :: r, b :: s => if a < b then true else if b < a then false else strLe r s

/-- insertion in front of the first element that is not smaller -/
def insertBy {α : Type} (le : α → α → Bool) (x : α) : List α → List α
  | [] => [x]
  | y :: r => if le x y then x :: y :: r else y :: insertBy le x r

/-- `sorted(l, key=...)`: a stable sort -/
def sortBy {α : Type} (le : α → α → Bool) (l : List α) : List α := l.foldr (insertBy le) []

/-- A dict item with its converted value: name, `isinstance(v, dict)`, item. -/
structure Child where
  key : Str
  isDict : Bool
  item : Item

/-- the key `(isinstance(v, dict), name)` of items.py:151 and 178, or `(isinstance(v, dict), 1)` without sorting -/
def childLe (byName : Bool) (a b : Child) : Bool :=
  if a.isDict = b.isDict then (if byName then strLe a.key b.key else true) else b.isDict

/-- the order of items.py:149-152 -/
def dictOrder (sort : Bool) (l : List Child) : List Child := if sort then sortBy (childLe true) l else l

/-- the order of items.py:176-179 -/
def elemOrder (sort : Bool) (l : List Child) : List Child := sortBy (childLe sort) l

/-- The `_parent` argument, as far as `item()` looks at it. -/
inductive Parent | none | table | array | inline
deriving DecidableEq, Repr

/-- `table_constructor(Container(), Trivia(), False)` and the assignments of items.py:148-154 -/
def buildTable (isAot : Bool) (l : List Child) : Except Err Tbl :=
  foldE (fun t ch => Tbl.setItem t ch.key ch.item) (.mk (Cont.empty false) {} isAot none none none) l

/-- the same for an `InlineTable`; inside a list the trail of the values is removed first, items.py:180-182 -/
def buildInline (l : List Child) : Except Err Cont :=
  foldE (fun c ch => inlineSetItem c {} ch.key ch.item) (Cont.empty false) l

/-- `i.trivia.trail = ""`, items.py:181-182 -/
def Child.noTrail (ch : Child) : Child := { ch with item := ch.item.setTrivia { ch.item.trivia with trail := [] } }

/-- the loop `a.append(v)` of items.py:189 on a new array -/
def buildArray (l : List Item) : Except Err Item :=
  ((mkArray []).extend l).map fun a => .array a.groups {} false

/-- a list of results, or the first exception -/
def seqE {α : Type} : List (Except Err α) → Except Err (List α)
  | [] => .ok []
  | .error e :: _ => .error e
  | .ok a :: r => (seqE r).map (a :: ·)

mutual
/-- `item(value, _parent, _sort_keys)`, items.py:117-228, on a Python value that is no item. The children of a dict
are converted before they are sorted, not between the assignments; the code converts each in turn. Floats and `None`
(which raises) are treated, custom encoders are in `Files`. -/
def PyVal.toItem (sort : Bool) (parent : Parent) : PyVal → Except Err Item
  | .bool b => .ok (.bool b {})
  | .int n => .ok (intItem n)
  | .float txt => .ok (.float txt {} txt)
  | .str s => .ok (stringItem s)
  | .date d => .ok (dateItem d)
  | .time t => .ok (timeItem t)
  | .datetime d => .ok (datetimeItem d)
  | .none => .error .convertError
  | .dict l =>
    match parent with
    | .array | .inline =>
      match l.toChildren sort .inline with
      | .error e => .error e
      | .ok cs => (buildInline (dictOrder sort cs)).map fun c => .inline c {} false
    | _ =>
      match l.toChildren sort .table with
      | .error e => .error e
      | .ok cs => (buildTable false (dictOrder sort cs)).map .table
  | .list l =>
    if !l.isEmpty && l.all PyVal.isDict && (parent = .none || parent = .table) then
      match l.toTables sort with
      | .error e => .error e
      | .ok ts => .ok (.aot (ts.foldl (aotAppend { trail := [] } false) []) { trail := [] } none false)
    else
      match l.toElems sort with
      | .error e => .error e
      | .ok is => buildArray is
termination_by structural v => v

/-- the values of a dict, converted -/
def _root_.List.toChildren (sort : Bool) (parent : Parent) : List PyPair → Except Err (List Child)
  | [] => .ok []
  | p :: r =>
    match p.toChild sort parent with
    | .error e => .error e
    | .ok c => (r.toChildren sort parent).map (c :: ·)
termination_by structural l => l

@[inherit_doc List.toChildren]
def PyPair.toChild (sort : Bool) (parent : Parent) : PyPair → Except Err Child
  | .mk k v => (v.toItem sort parent).map fun i => ⟨k, v.isDict, i⟩
termination_by structural p => p

/-- the elements of a list that becomes an array of tables, items.py:171-189 -/
def _root_.List.toTables (sort : Bool) : List PyVal → Except Err (List Tbl)
  | [] => .ok []
  | v :: r =>
    match v.toTable sort with
    | .error e => .error e
    | .ok t => (r.toTables sort).map (t :: ·)
termination_by structural l => l

/-- one table of an array of tables -/
def PyVal.toTable (sort : Bool) : PyVal → Except Err Tbl
  | .dict l =>
    match l.toChildren sort .table with
    | .error e => .error e
    | .ok cs => buildTable true (elemOrder sort cs)
  | _ => .error .valueError
termination_by structural v => v

/-- The elements of a list that becomes an array, items.py:171-189: a dict becomes an inline table here; anything else is
converted by `Array.insert` (items.py:1345), which does not pass `_sort_keys` on. -/
def _root_.List.toElems (sort : Bool) : List PyVal → Except Err (List Item)
  | [] => .ok []
  | v :: r =>
    match v.toElem sort with
    | .error e => .error e
    | .ok i => (r.toElems sort).map (i :: ·)
termination_by structural l => l

@[inherit_doc List.toElems]
def PyVal.toElem (sort : Bool) : PyVal → Except Err Item
  | .bool b => .ok (.bool b {})
  | .int n => .ok (intItem n)
  | .float txt => .ok (.float txt {} txt)
  | .str s => .ok (stringItem s)
  | .date d => .ok (dateItem d)
  | .time t => .ok (timeItem t)
  | .datetime d => .ok (datetimeItem d)
  | .none => .error .convertError
  | .dict l =>
    match l.toChildren sort .inline with
    | .error e => .error e
    | .ok cs => (buildInline (elemOrder sort (cs.map Child.noTrail))).map fun c => .inline c {} true
  | .list l =>
    match l.toElems false with
    | .error e => .error e
    | .ok is => buildArray is
termination_by structural v => v
end

/-! ## Back to Python values -/

/-- `dict[k] = v` on the list of items of a dict -/
def pySetKey (k : Str) (v : PyVal) : List PyPair → List PyPair
  | [] => [.mk k v]
  | p :: r => if p.key == k then .mk k v :: r else p :: pySetKey k v r

/-- `dict.get(k)` -/
def pyGet (k : Str) : List PyPair → Option PyVal
  | [] => none
  | p :: r => if p.key == k then some p.val else pyGet k r

mutual
/-- `merge_dicts(d1, d2)`, _utils.py:150-157: the items of `d1` afterwards. -/
def mergeDicts (d1 : List PyPair) : List PyPair → List PyPair
  | [] => d1
  | p :: r => mergeDicts (mergePair d1 p) r
termination_by structural d2 => d2
/-- one step of the loop of `merge_dicts` -/
def mergePair (d1 : List PyPair) : PyPair → List PyPair
  | .mk k v => pySetKey k (mergeVal (pyGet k d1) v) d1
termination_by structural p => p
/-- the new value of a key: the merged dict if both are dicts, the new value otherwise -/
def mergeVal (old : Option PyVal) : PyVal → PyVal
  | .dict l2 => match old with
    | some (.dict l1) => .dict (mergeDicts l1 l2)
    | _ => .dict l2
  | v => v
termination_by structural v => v
end

/-- `d[k] = v`, or `merge_dicts(d[k], v)` when the key is there: container.py:70-80. Merging something that is not a dict
raises in the code; it is overwritten here. -/
def valuePut (d : List PyPair) (k : Str) (v : PyVal) : List PyPair :=
  match pyGet k d with
  | some (.dict l1) => (match v with
    | .dict l2 => pySetKey k (.dict (mergeDicts l1 l2)) d
    | v => pySetKey k v d)
  | _ => pySetKey k v d

mutual
/-- `Item.value`, with `Container.value` applied to containers (container.py:63-80) and to the elements of arrays
and arrays of tables, so that the result is a plain Python value. -/
def Item.pyValue : Item → PyVal
  | .ws s _ => .str s
  | .comment _ => .none
  | .integer v _ _ => .int v
  | .float txt _ _ => .float txt
  | .bool b _ => .bool b
  | .datetime v _ _ => .datetime v
  | .date v _ _ => .date v
  | .time v _ _ => .time v
  | .str _ v _ _ => .str v
  | .array gs _ _ => .list gs.pyValues
  | .inline c _ _ => .dict c.pyItems
  | .table tb => .dict tb.pyItems
  | .aot ts _ _ _ => .list ts.pyTables
  | .null _ => .none
termination_by structural i => i
/-- the elements of an array: the groups whose value is neither `None`, white space, a comment nor `Null` -/
def _root_.List.pyValues : List AGroup → List PyVal
  | [] => []
  | g :: r => g.pyValue ++ r.pyValues
termination_by structural g => g
@[inherit_doc List.pyValues]
def AGroup.pyValue : AGroup → List PyVal
  | .noval .. => []
  | .val _ v _ _ => if v.isWhitespace || v.isComment || v.isNull then [] else [v.pyValue]
termination_by structural g => g
@[inherit_doc Item.pyValue]
def _root_.List.pyTables : List Tbl → List PyVal
  | [] => []
  | t :: r => .dict t.pyItems :: r.pyTables
termination_by structural t => t
@[inherit_doc Item.pyValue]
def Tbl.pyItems : Tbl → List PyPair
  | .mk c _ _ _ _ _ => c.pyItems
termination_by structural t => t
/-- `Container.value`, container.py:63-80 -/
def Cont.pyItems : Cont → List PyPair
  | .mk b _ _ _ _ => pyEntries [] b
termination_by structural c => c
/-- the loop of `Container.value` -/
def pyEntries (d : List PyPair) : List Entry → List PyPair
  | [] => d
  | e :: r => pyEntries (e.pyPut d) r
termination_by structural e => e
/-- one step of that loop -/
def Entry.pyPut (d : List PyPair) : Entry → List PyPair
  | .mk none _ => d
  | .mk (some k) v => valuePut d k.key v.pyValue
termination_by structural e => e
end

mutual
/-- `unwrap()` of every item class: items.py:488-490 and overrides, 1176-1183 (arrays), 1444-1453 (tables), 1852-1859
(arrays of tables). A comment, white space or `Null` is no value: the code's `unwrap` of those is not reached. -/
def Item.unwrap : Nat → Item → Except Err PyVal
  | 0, _ => .error .fuel
  | n + 1, i =>
    match i with
    | .array gs _ _ =>
      (unwrapAll n (gs.flatMap fun g => match g with
        | .noval .. => []
        | .val _ v _ _ => if v.isWhitespace || v.isComment || v.isNull then [] else [v])).map .list
    | .inline c _ _ => (Cont.unwrap n c).map .dict
    | .table tb => (Cont.unwrap n tb.cont).map .dict
    | .aot ts _ _ _ => (unwrapAll n (ts.map Item.table)).map .list
    | .integer v _ _ => .ok (.int v)
    | .float txt _ _ => .ok (.float txt)
    | .bool b _ => .ok (.bool b)
    | .datetime v _ _ => .ok (.datetime v)
    | .date v _ _ => .ok (.date v)
    | .time v _ _ => .ok (.time v)
    | .str _ v _ _ => .ok (.str v)
    | .ws .. | .comment _ | .null _ => .ok .none
/-- unwrap a list of items -/
def unwrapAll : Nat → List Item → Except Err (List PyVal)
  | 0, _ => .error .fuel
  | _ + 1, [] => .ok []
  | n + 1, i :: r =>
    match Item.unwrap n i with
    | .error e => .error e
    | .ok v => (unwrapAll n r).map (v :: ·)
/-- `Container.unwrap`, container.py:46-61, and `AbstractTable.unwrap`, items.py:1444-1453: the keys in the order of
the underlying dict, each read with `self[key]`; a table written in several places is read through its proxy
(container.py:810-811). -/
def Cont.unwrap : Nat → Cont → Except Err (List PyPair)
  | 0, _ => .error .fuel
  | n + 1, c => unwrapKeys n c c.dict
/-- the loop of `Container.unwrap` -/
def unwrapKeys : Nat → Cont → List Str → Except Err (List PyPair)
  | 0, _, _ => .error .fuel
  | _ + 1, _, [] => .ok []
  | n + 1, c, k :: r =>
    match unwrapKey n c k with
    | .error e => .error e
    | .ok v => (unwrapKeys n c r).map (.mk k v :: ·)
/-- `self[k]`, unwrapped -/
def unwrapKey : Nat → Cont → Str → Except Err PyVal
  | 0, _, _ => .error .fuel
  | n + 1, c, k =>
    match c.item k with
    | .error e => .error e
    | .ok (.inl v) => Item.unwrap n v
    | .ok (.inr is) =>
      match Cont.mkProxy (fuelFor c (.null {})) c is with
      | .error e => .error e
      | .ok p => (Cont.unwrap n p).map .dict
end

/-- `api.dumps(d, sort_keys)` for a mapping that is no container, api.py:45-58. -/
def dumpsDict (sort : Bool) (l : List PyPair) : Except Err Str :=
  (PyVal.toItem sort .none (.dict l)).map Item.asString

end Tomlkit
