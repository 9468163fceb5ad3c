import Verif.Proofs.Rekey
import Verif.Model.Convert
import Verif.Props.Containers
/-!
# A copy is as good as the original: C34
-/
namespace Tomlkit
open Tomlkit.Spec

theorem alike_shallow (c : Cont) : Alike c c.shallow := ⟨rfl, rfl, rfl, rfl⟩

theorem unwrapKey_alike {c c' : Cont} (h : Alike c c') (n : Nat) (k : Str) : unwrapKey n c' k = unwrapKey n c k := by
  rcases n with _ | n
  · rw [unwrapKey, unwrapKey]
  rw [unwrapKey, unwrapKey]
  have e : c'.item k = c.item k := by unfold Cont.item; rw [h.map, h.body]
  rw [e, fuelFor_alike h]
  rcases c.item k with _ | (v | is)
  · rfl
  · rfl
  · simp only
    rw [mkProxy_alike h]

theorem unwrapKeys_alike {c c' : Cont} (h : Alike c c') : ∀ (n : Nat) (l : List Str), unwrapKeys n c' l = unwrapKeys n c l
  | 0, _ => by rw [unwrapKeys, unwrapKeys]
  | _ + 1, [] => by rw [unwrapKeys, unwrapKeys]
  | n + 1, k :: r => by
    rw [unwrapKeys, unwrapKeys, unwrapKey_alike h, unwrapKeys_alike h n r]

theorem unwrap_alike {c c' : Cont} (h : Alike c c') (n : Nat) : Cont.unwrap n c' = Cont.unwrap n c := by
  rcases n with _ | n
  · rw [Cont.unwrap, Cont.unwrap]
  · rw [Cont.unwrap, Cont.unwrap, h.dict, unwrapKeys_alike h]

theorem alike_observed {r r' : Except Err Cont} (h : AlikeResults r r') {α : Type} (f : Cont → α)
    (hf : ∀ {c c' : Cont}, Alike c c' → f c' = f c) : r'.map f = r.map f := by
  rcases r with e | c <;> rcases r' with e' | c'
  · cases h; rfl
  · cases h
  · cases h
  · exact congrArg Except.ok (hf h)

/-- C34 for `copy.copy`: whatever is done with the copy, at any depth, it gives the same text, the same keys in the same
order, the same plain values, and raises the same exceptions, as doing it with the original. The one exception is adding a
super table to the document itself: see `C34_counterexample_super`. -/
theorem C34_copy_partial (c : Cont) (ops : List (List Step × Op)) (h : ∀ o ∈ ops, NoSuperAtTop o) :
    (c.shallow.history ops).map dumps = (c.history ops).map dumps ∧
    (c.shallow.history ops).map Cont.dict = (c.history ops).map Cont.dict ∧
    (∀ k, (c.shallow.history ops).map (·.item k) = (c.history ops).map (·.item k)) ∧
    ∀ n, (c.shallow.history ops).map (Cont.unwrap n) = (c.history ops).map (Cont.unwrap n) := by
  have ha := alike_history ops (alike_shallow c) h
  refine ⟨alike_observed ha dumps ?_, alike_observed ha _ (fun h => h.dict), fun k => alike_observed ha (·.item k) ?_,
    fun n => alike_observed ha _ (fun h => unwrap_alike h n)⟩
  · intro c c' h
    obtain ⟨b, m, d, p, tk, tk', rfl, rfl⟩ := alike_cases h
    rfl
  · intro c c' h
    show c'.item k = c.item k
    unfold Cont.item; rw [h.map, h.body]

/-- C34 for `copy.deepcopy` of a parsed document, unless something was lost in parsing (C01): the copy is the same in every respect,
so everything done with it gives what the original gives, for ever. -/
theorem C34_deepcopy_parsed (s : Str) (c : Cont) (h : parseLog s = .ok (c, [])) (ops : List (List Step × Op)) :
    c.deepCopy = c ∧ c.deepCopy.history ops = c.history ops :=
  ⟨parsed_deepCopy h, by rw [parsed_deepCopy h]⟩

/-- C34 for `copy.deepcopy` of any document whose indices are consistent, as they are after parsing and after every history of
edits (C13), and which a deep copy can reproduce: the copy has the same text and the same keys, though perhaps in another order,
and every key leads to the same places. Deep copies made from such copies are the same again.
Missing: later edits of the copy. -/
theorem C34_deepcopy_text_partial (c : Cont) (h : Every Consistent c) (hc : c.Copyable) :
    dumps c.deepCopy = dumps c ∧ c.deepCopy.dict.Perm c.dict ∧ c.deepCopy.map = c.map ∧ c.deepCopy = c.rekey := by
  have hg := (every_iff c).1 h
  have e := Cont.deepCopy_rekey c hc hg
  have hw := ((Cont.good_iff c).1 hg).1
  refine ⟨?_, ?_, ?_, e⟩
  · rw [e]; exact (Cont.rekey_text c hg).1.1
  · rw [e, Cont.rekey_fields]; exact hw.dict_perm
  · rw [e, Cont.rekey_fields]; rfl

/-! ### cases -/

/-- a copy of a parsed document: a table is changed in the middle, a key is deleted, a table is added, a key is set twice -/
example := C34_copy_partial ((parse (t!"x = 1 # c\n[a.b]\ny = 2\n[z]\n")).toOption.getD (.empty false))
  [([.key (t!"a"), .key (t!"b")], .set (t!"y") (.bool true {})), ([], .remove (t!"x")),
   ([], .append (t!"n") (.table (.mk (.empty false) {} false none none none))), ([], .append (t!"n") (.bool true {}))]
  (by
    have e : (Tbl.mk (.empty false) {} false none none none).isSuper = false := by decide
    simp [NoSuperAtTop, IsSuperTable, e])

set_option maxRecDepth 10000 in
/-- a parsed document with all kinds of entries: nothing is lost in parsing -/
example : ((parseLog (t!"x = 1 # c\n[a.b]\ny = [ 2, # two\n {p = 1,q.r=2} ] \n[[t]]\n[t.u]\n[[t]]\n  k = ''\n")).toOption.map fun p =>
    p.2.length) = some 0 := by decide +kernel

/-- `{"p": 1}` as a table -/
def builtTable (name : Option Str) : Item :=
  .table (.mk (.mk [.mk (some (mkKey (t!"p"))) (.integer 1 {} (t!"1"))] [(t!"p", [0])] [t!"p"] false []) {} false none name none)

/-- `doc["t"] = {"p": 1}`, `doc["b"] = 1` -/
def buildOps : List (List Step × Op) := [([], .set (t!"t") (builtTable none)), ([], .set (t!"b") (.integer 1 {} (t!"1")))]

/-- the document these make -/
def builtDoc : Cont := .mk
  [.mk (some (mkKey (t!"b"))) (.integer 1 {} (t!"1")), .mk (some (mkKey (t!"t"))) (builtTable (some (t!"t")))]
  [(t!"t", [1]), (t!"b", [0])] [t!"t", t!"b"] false [t!"t"]

theorem builtDoc_made : (Cont.empty false).history buildOps = .ok builtDoc := rfl

theorem builtTable_consistent : EveryItem Consistent (builtTable none) := by
  have h : Consistent (.mk [.mk (some (mkKey (t!"p"))) (.integer 1 {} (t!"1"))] [(t!"p", [0])] [t!"p"] false []) := by
    have h1 : (Cont.empty false).history [([], .set (t!"p") (.integer 1 {} (t!"1")))] =
      .ok (.mk [.mk (some (mkKey (t!"p"))) (.integer 1 {} (t!"1"))] [(t!"p", [0])] [t!"p"] false []) := rfl
    have h2 := C13_histories _ _ _ ((every_iff (.empty false)).2 ⟨Cont.WF_empty false, trivial⟩) (by
      intro p hp v hv
      rcases List.mem_singleton.1 hp with rfl
      cases hv
      trivial) h1
    exact h2.1
  exact ⟨h, trivial, trivial⟩

theorem builtDoc_consistent : Every Consistent builtDoc := by
  refine C13_histories _ _ _ ((every_iff (.empty false)).2 ⟨Cont.WF_empty false, trivial⟩) ?_ builtDoc_made
  intro p hp v hv
  rcases List.mem_cons.1 hp with rfl | hp
  · cases hv
    exact builtTable_consistent
  · rcases List.mem_singleton.1 hp with rfl
    cases hv
    trivial

theorem builtDoc_copyable : builtDoc.Copyable := by
  simp [builtDoc, builtTable, Cont.Copyable, copyableEntries, Entry.Copyable, Item.Copyable, Tbl.Copyable]

example := C34_deepcopy_text_partial builtDoc builtDoc_consistent builtDoc_copyable

/-- C34 is false for the order of the keys: `list(doc)` is `["t", "b"]`, but `list(copy.deepcopy(doc))` is `["b", "t"]`. -/
theorem C34_counterexample_order : (Cont.empty false).history buildOps = .ok builtDoc ∧
    builtDoc.dict = [t!"t", t!"b"] ∧ builtDoc.deepCopy.dict = [t!"b", t!"t"] := ⟨rfl, rfl, rfl⟩

/-- an empty table -/
def emptyTable (superTable : Option Bool) (inAot : Bool) : Tbl := .mk (.empty false) {} inAot superTable none none

set_option maxRecDepth 10000 in
/-- C34 is false for super tables: after `[a.b] x=1 [z]`, `doc.append("a", table(is_super_table=True))` works, but on
`copy.copy(doc)` it raises `IndexError`, because the copy has no `_table_keys`. -/
theorem C34_counterexample_super :
    let ops : List (List Step × Op) := [([], .append (t!"a") (.table (emptyTable (some true) false)))]
    ((parse (t!"[a.b]\nx=1\n[z]\n")).toOption.map fun c => (c.history ops).toOption.isSome) = some true ∧
    ((parse (t!"[a.b]\nx=1\n[z]\n")).toOption.map fun c => match c.shallow.history ops with
      | .error e => decide (e = .indexError)
      | .ok _ => false) = some true :=
  ⟨by decide +kernel, by decide +kernel⟩

/-- C34 is false for inline tables made with `tomlkit.inline_table()`: the deep copy is no longer marked as new and is written
without spaces. -/
theorem C34_counterexample_inline :
    let made := (Cont.empty false).history [([], .set (t!"t") (.inline (.empty false) {} true)),
      ([.key (t!"t")], .set (t!"a") (.integer 1 {} (t!"1"))), ([.key (t!"t")], .set (t!"b") (.integer 2 {} (t!"2")))]
    made.toOption.map dumps = some (t!"t = {a = 1, b = 2}\n") ∧ made.toOption.map (dumps ·.deepCopy) = some (t!"t = {a = 1,b = 2}\n") := ⟨by decide +kernel, by decide +kernel⟩

/-- C34 is false for arrays of tables made with `tomlkit.aot()`: tables filled after they were put into the array stand without a blank line,
in the deep copy they get one. -/
theorem C34_counterexample_aot :
    let made := (Cont.empty false).history [([], .set (t!"t") (.aot [emptyTable none true, emptyTable none true] { trail := [] } none false)),
      ([.elem (t!"t") 0], .set (t!"a") (.integer 1 {} (t!"1"))), ([.elem (t!"t") 1], .set (t!"b") (.integer 2 {} (t!"2")))]
    made.toOption.map dumps = some (t!"[[t]]\na = 1\n[[t]]\nb = 2\n") ∧
    made.toOption.map (dumps ·.deepCopy) = some (t!"[[t]]\na = 1\n\n[[t]]\nb = 2\n") := ⟨by decide +kernel, by decide +kernel⟩

/-- **C34** for `copy.copy` of one table or inline table. Wherever the copy is put, it is written as the original is written there,
it has the same plain value, and it is a super table (so written without a header) exactly if the original is. -/
theorem C34_copy_of_item (v : Item) (key : Option SKey) (tp sp : Option Str) :
    (Entry.mk key v.shallow).render tp sp = (Entry.mk key v).render tp sp ∧
    v.shallow.asString = v.asString ∧ (∀ n, v.shallow.unwrap n = v.unwrap n) ∧ (IsSuperTable v.shallow ↔ IsSuperTable v) := by
  rcases v with _ | _ | _ | _ | _ | _ | _ | _ | _ | _ | ⟨⟨b, m, d, p, tk⟩, t, new⟩ | ⟨⟨b, m, d, p, tk⟩, t, ia, sf, nm, dn⟩ | _ | _ <;>
    rcases key with _ | key <;> try exact ⟨rfl, rfl, fun _ => rfl, Iff.rfl⟩
  all_goals
    refine ⟨rfl, rfl, fun n => ?_, Iff.rfl⟩
    rcases n with _ | n
    · unfold Item.unwrap; rfl
    · unfold Item.unwrap
      dsimp only [Item.shallow]
      exact congrArg (Except.map PyVal.dict) (unwrap_alike (alike_shallow _) n)

/-- a table whose header is written only because it was read so: `[a]` followed by `[a.b]` -/
example : ((parse (t!"[a]\n[a.b]\n")).toOption.bind fun c => c.body.head?.map fun e =>
    ((Entry.mk e.key e.v.shallow).render none none, decide ((Entry.mk e.key e.v.shallow).render none none = t!"[a]\n[a.b]\n"))) =
    some (t!"[a]\n[a.b]\n", true) := by decide +kernel

end Tomlkit
