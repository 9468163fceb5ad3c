import Verif.Spec.AboveEdit
/-!
# What the claim about edits inside tables (C45) means
-/
namespace Tomlkit.Spec
open Tomlkit _root_.Spec

/-- `k` is the name of a table written in one place: the entry at position `i` -/
def OneTable (c : Cont) (k : Str) (i : Nat) (key : Option SKey) (b : Tbl) : Prop := mapGet k c.map = some [i] ∧ c.body[i]? = some (.mk key (.table b))

/-- the document with another entry at a position, and nothing else changed -/
def _root_.Tomlkit.Cont.setE (c : Cont) (i : Nat) (e : Entry) : Cont := .mk (c.body.set i e) c.map c.dict c.parsed c.tableKeys

/-- `doc[k].item(k').comment(s)`, container.py:457-472, items.py:494-502 -/
def noteIn (doc : Cont) (k k' s : Str) : Except Err Cont :=
  match mapGet k doc.map with
  | none => .error .nonExistentKey
  | some [i] => match tableAt doc.body i with
    | some (key, tb) => (tb.cont.note k' s).map fun c' => doc.setE i (.mk key (.table (tb.setCont c')))
    | none => .error .typeError
  | some _ => .error .unmodelled

/-- An edit of the table `doc[k]`: `doc[k][k'] = w`, `doc[k].add(k', w)`, `del doc[k][k']`, and so on. -/
def Edit.runIn (doc : Cont) (k : Str) : Edit → Except Err Cont
  | .set k' w p => match w.toItem false p with
    | .error e => .error e
    | .ok v => Cont.atPath (.set k' v) [.key k] .doc doc
  | .add k' w p => match w.toItem false p with
    | .error e => .error e
    | .ok v => Cont.atPath (.append k' v) [.key k] .doc doc
  | .remove k' => Cont.atPath (.remove k') [.key k] .doc doc
  | .comment s => Cont.atPath (.add (apiComment s)) [.key k] .doc doc
  | .nl => Cont.atPath (.add (apiWs [10])) [.key k] .doc doc
  | .note k' s => noteIn doc k k' s

/-- The document after a sequence of edits of `doc[k]`; an edit that raises leaves it as it is. -/
def docIn (doc : Cont) (k : Str) : List Edit → Cont
  | [] => doc
  | e :: r => match e.runIn doc k with
    | .ok doc' => docIn doc' k r
    | .error _ => docIn doc k r

end Tomlkit.Spec
