import Verif.Model.Sequence
import Verif.Spec.Lists
/-!
# What the list-method claim (C46) means

The methods of Python's `list`, on a list of what the elements look like to the caller.
-/
namespace Tomlkit.Spec
open Tomlkit

/-- the end of a search: an absent one is the length, negative ones count from the end -/
def listStop (n : Nat) (stop : Option Int) : Int :=
  match stop with
  | none => n
  | some e => if e < 0 then e + n else e

/-- `l.index(v, start, stop)` for an equality test `eq`: the first position from `start` on and before `stop` that
holds an equal element; negative bounds count from the end. `none` is `ValueError`. -/
def listIndex {β : Type} (l : List β) (eq : β → Bool) (start : Int) (stop : Option Int) : Option Nat :=
  let n : Int := l.length
  let lo := if start < 0 then start + n else start
  let hi := listStop l.length stop
  (List.range l.length).find? fun i => decide (lo ≤ i) && decide ((i : Int) < hi) && (l[i]?).any eq

/-- Methods that change the list: `l.insert(k, x)`, `l.append(x)`, `l.extend(xs)` and `l += xs`, `l[k] = x`,
`del l[k]`, `l.pop(k)` (`l.pop()` is `k = -1`), `l.remove(v)`, `l.reverse()`; `α` are the values given, `β` what
elements look like. -/
inductive SeqOp (α β : Type)
  | insert (k : Int) (x : α)
  | append (x : α)
  | extend (xs : List α)
  | set (k : Int) (x : α)
  | del (k : Int)
  | pop (k : Int)
  | remove (eq : β → Bool)
  | reverse

/-- the values an operation brings in -/
def SeqOp.vals {α β : Type} : SeqOp α β → List α
  | .insert _ x | .append x | .set _ x => [x]
  | .extend xs => xs
  | _ => []

/-- does the operation assign to positions? -/
def SeqOp.assigns {α β : Type} : SeqOp α β → Bool
  | .set .. | .reverse => true
  | _ => false

/-- `IndexError` for a position that does not exist -/
def orIndexError {γ : Type} : Option γ → Except Err γ
  | some l => .ok l
  | none => .error .indexError

/-- the method on a Python `list`: the new list, or the exception -/
def SeqOp.onList {α β : Type} (seen : α → β) (l : List β) : SeqOp α β → Except Err (List β)
  | .insert k x => .ok (pyInsert l k (seen x))
  | .append x => .ok (l ++ [seen x])
  | .extend xs => .ok (l ++ xs.map seen)
  | .set k x => orIndexError (pySet l k (seen x))
  | .del k => orIndexError (pyDel l k)
  | .pop k => orIndexError (pyDel l k)
  | .remove eq => if l.any eq then .ok (l.eraseP eq) else .error .valueError
  | .reverse => .ok l.reverse

/-- the method on an array or an array of tables -/
def SeqOp.run {σ α β : Type} (I : SeqImpl σ α) (seen : α → β) (s : σ) : SeqOp α β → Except Err σ
  | .insert k x => I.insert s k x
  | .append x => I.append s x
  | .extend xs => I.extend xs s
  | .set k x => I.set s k x
  | .del k => I.del s k
  | .pop k => (I.pop s k).map Prod.fst
  | .remove eq => I.remove s fun v => eq (seen v)
  | .reverse => I.reverse s

/-! ## Arrays -/

/-- the methods on an array: those above, `a.clear()`, and `a.add_line(...)` -/
inductive ArrOp
  | seq (o : SeqOp Item Item)
  | clear
  | addLine (items : List Item) (indent : Str) (comment : Option Str) (addComma newline : Bool)

/-- the operations insert only data; for `add_line` see `LOp.isData` -/
def ArrOp.IsData : ArrOp → Prop
  | .seq o => ∀ it ∈ o.vals, it.isData = true
  | .clear => True
  | .addLine its _ _ _ _ => ∀ it ∈ its, it.isNull = false ∧ it.losesItem = false

/-- the operation on a Python `list` -/
def ArrOp.onList (l : List Item) : ArrOp → Except Err (List Item)
  | .seq o => o.onList Item.handed l
  | .clear => .ok []
  | .addLine its _ _ addComma _ =>
    if its.any fun i => i.isComment || (addComma && i.isWhitespace) then .error .valueError
    else .ok (l ++ (its.filter Item.isData).map Item.handed)

/-- the operation on an array -/
def ArrOp.run (a : ArrObj) : ArrOp → Except Err ArrObj
  | .seq o => o.run arraySeq Item.handed a
  | .clear => .ok a.clear
  | .addLine its indent comment addComma newline => a.addLine its indent comment addComma newline

/-- a list driven by a history; an operation that raises is skipped -/
def arrListAfter : List Item → List ArrOp → List Item
  | l, [] => l
  | l, o :: r => arrListAfter (match o.onList l with | .ok l' => l' | .error _ => l) r

/-- an array driven by a history; an operation that raises is skipped -/
def arrAfter : ArrObj → List ArrOp → ArrObj
  | a, [] => a
  | a, o :: r => arrAfter (match o.run a with | .ok b => b | .error _ => a) r

end Tomlkit.Spec
