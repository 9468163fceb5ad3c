import Verif.Model.Arrays
/-!
# What the list claims (C19, C20, C31) mean
-/
namespace Tomlkit

/-- An item that can be an element of an array: not white space, not a comment, not the placeholder `Null`. -/
def Item.isData (i : Item) : Bool := !(i.isWhitespace || i.isComment || i.isNull)

/-- The elements that are printed for a group list, in order: the values of the groups, placeholders excluded. -/
def printed : List AGroup → List Item
  | [] => []
  | .noval .. :: r => printed r
  | .val _ v _ _ :: r => if v.isNull then printed r else v :: printed r

/-- The list operations of the claims on an array. `pop k` removes like `del k`;
`addLine` is `add_line(*items, indent=, comment=, add_comma=, newline=)`. -/
inductive LOp
  | insert (k : Int) (it : Item)
  | append (it : Item)
  | extend (its : List Item)
  | set (k : Int) (it : Item)
  | del (k : Int)
  | pop (k : Int)
  | clear
  | addLine (items : List Item) (indent : Str) (comment : Option Str) (addComma newline : Bool)

/-- the operations insert only data; `add_line` also takes white space and comments (and may refuse them), but no boolean and no
inline table, for which the code puts something into the list that is no item (`it.value`, items.py:1285) -/
def LOp.isData : LOp → Bool
  | .insert _ it | .append it | .set _ it => it.isData
  | .extend its => its.all Item.isData
  | .addLine its _ _ _ _ => its.all fun i => !i.isNull && !i.losesItem
  | _ => true

/-- What an operation does to a plain Python list; `none`: it raises and changes nothing. -/
def LOp.onList (l : List Item) : LOp → Option (List Item)
  | .insert k it => some (pyInsert l k it)
  | .append it => some (l ++ [it])
  | .extend its => some (l ++ its)
  | .set k it => pySet l k it
  | .del k => pyDel l k
  | .pop k => pyDel l k
  | .clear => some []
  | .addLine its _ _ addComma _ =>
    if its.any fun i => i.isComment || (addComma && i.isWhitespace) then none else some (l ++ its.filter Item.isData)

/-- What an operation does to an array of the model. -/
def LOp.onArray (a : ArrObj) : LOp → Except Err ArrObj
  | .insert k it => a.insert k it
  | .append it => a.append it
  | .extend its => a.extend its
  | .set k it => a.setItem k it
  | .del k => a.delItem k
  | .pop k => a.delItem k
  | .clear => .ok a.clear
  | .addLine its indent comment addComma newline => a.addLine its indent comment addComma newline

/-- a plain list driven by a history of operations; an operation that raises is skipped -/
def listHistory : List Item → List LOp → List Item
  | l, [] => l
  | l, o :: r => listHistory ((o.onList l).getD l) r

/-- an array driven by a history of operations; an operation that raises is skipped -/
def arrayHistory : ArrObj → List LOp → ArrObj
  | a, [] => a
  | a, o :: r => arrayHistory (match o.onArray a with | .ok b => b | .error _ => a) r

end Tomlkit
