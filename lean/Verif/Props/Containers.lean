import Verif.Proofs.DictRef
/-!
# C12, C13: containers as dictionaries, and their consistency under edits
-/
namespace Tomlkit
open Spec

/-! ## C12 -/

/-- every consistent container without tables shows a dictionary -/
theorem C12_every_container_is_a_dict (c : Cont) (hc : Consistent c) (hf : Flat c) : ∃ d, Shows c d := by
  have hw := WF_of_consistent hc
  refine ⟨c.dict.map fun k => (k, ((reads c k).bind List.head?).getD .none), ?_, ?_⟩
  · rw [List.map_map]
    have : (Prod.fst ∘ fun k => (k, ((reads c k).bind List.head?).getD PyVal.none)) = id := rfl
    rw [this, List.map_id]
  · intro k
    rw [List.find?_map]
    have hfn : ((fun p : Str × PyVal => p.1 == k) ∘ fun k => (k, ((reads c k).bind List.head?).getD PyVal.none)) =
        fun x => x == k := rfl
    rw [hfn]
    rcases hm : mapGet k c.map with _ | is
    · have hk := WF.not_mem_dict hw hm
      rw [reads_none.2 hm]
      have : c.dict.find? (fun x => x == k) = none := by
        rw [List.find?_eq_none]
        intro x hx
        simp only [beq_iff_eq]
        rintro rfl; exact hk hx
      rw [this]; rfl
    · obtain ⟨i, key, old, rfl, hb, hkk, hpl⟩ := single_of_plain hw (flat_holds hf) hm
      have hr : reads c k = some [old.pyValue] := by
        unfold reads; rw [hm]; simp [hb]
      have hmem : k ∈ c.dict := by rw [hw.dictMem, hm]; rfl
      have : c.dict.find? (fun x => x == k) = some k := by
        rcases hfd : c.dict.find? (fun x => x == k) with _ | x
        · rw [List.find?_eq_none] at hfd
          exact absurd (by simp) (hfd k hmem)
        · have := List.find?_some hfd
          rw [beq_iff_eq] at this; rw [this]
      rw [this, hr]; simp [hr]

/-- **C12**, one operation. On a document, table or inline table that shows the dictionary `d` and holds no tables, an
operation returns if and only if it does on `d`, with the same exception otherwise, and afterwards the container shows
the resulting dictionary: same keys, same order, same values. -/
theorem C12_step (h : Holder) (c : Cont) (d : Dict) (hc : Consistent c) (hf : Flat c) (hs : Shows c d) (o : DictOp)
    (ho : o.Plain) :
    (∀ d', o.onDict d = .ok d' → ∃ c', o.op.run h c = .ok c' ∧ Consistent c' ∧ Flat c' ∧ Shows c' d') ∧
    (∀ e, o.onDict d = .error e → o.op.run h c = .error e) := by
  have := dict_step h ⟨WF_of_consistent hc, hf, hs⟩ o ho
  refine ⟨fun d' hd' => ?_, this.2⟩
  obtain ⟨c', h1, h2⟩ := this.1 d' hd'
  exact ⟨c', h1, consistent_of_WF h2.wf, h2.flat, h2.shows⟩

/-- **C12.** Under any sequence of assignments, appends, comments and deletions a container without tables reads like a
Python `dict` driven by the same operations. -/
theorem C12_container_is_dict (h : Holder) (ops : List DictOp) (hops : ∀ o ∈ ops, o.Plain) (c : Cont) (d : Dict)
    (hc : Consistent c) (hf : Flat c) (hs : Shows c d) :
    Shows (contAfter h c ops) (d.after ops) ∧ Consistent (contAfter h c ops) := by
  induction ops generalizing c d with
  | nil => exact ⟨hs, hc⟩
  | cons o r ih =>
    have hst := C12_step h c d hc hf hs o (hops o (List.mem_cons_self ..))
    have hr : ∀ o ∈ r, o.Plain := fun o ho => hops o (List.mem_cons_of_mem _ ho)
    rcases hd : o.onDict d with e | d'
    · have h1 := hst.2 e hd
      simp only [contAfter, Dict.after, hd, h1]
      exact ih hr c d hc hf hs
    · obtain ⟨c', h1, h2, h3, h4⟩ := hst.1 d' hd
      simp only [contAfter, Dict.after, hd, h1]
      exact ih hr c' d' h2 h3 h4

/-- **C12**, from the empty document. -/
theorem C12_from_empty (h : Holder) (ops : List DictOp) (hops : ∀ o ∈ ops, o.Plain) :
    Shows (contAfter h (.empty false) ops) (Dict.after [] ops) := by
  refine (C12_container_is_dict h ops hops _ [] (consistent_of_WF (Cont.WF_empty _)) ?_ ⟨rfl, fun k => rfl⟩).1
  intro e he; cases he

/-- reads, membership and length that follow from `Shows` -/
theorem C12_reads (c : Cont) (d : Dict) (hs : Shows c d) (k : Str) :
    c.dict.length = d.length ∧ (k ∈ c.dict ↔ d.has k = true) ∧
    (∀ v, (d.find? fun p => p.1 == k) = some (k, v) → reads c k = some [v]) ∧
    (d.has k = false → reads c k = none ∧ c.item k = .error .nonExistentKey) := by
  refine ⟨by rw [hs.1, List.length_map], ?_, ?_, ?_⟩
  · rw [hs.1, List.mem_map]
    unfold Dict.has
    rw [List.any_eq_true]
    simp only [beq_iff_eq]
  · intro v hv
    rw [hs.2 k, hv]; rfl
  · intro hno
    have hm : mapGet k c.map = none := by
      rw [← Option.not_isSome_iff_eq_none, ← shows_has hs k, hno]; simp
    refine ⟨reads_none.2 hm, ?_⟩
    unfold Cont.item
    rw [hm]

set_option maxRecDepth 10000 in
example :
    let ops : List DictOp := [.set (t!"a") (intItem 1), .append (t!"b") (stringItem (t!"x")), .append (t!"a") (intItem 2),
      .add (apiComment (t!"c")), .remove (t!"a"), .set (t!"c") (intItem 3), .set (t!"b") (.bool true {}), .remove (t!"q")]
    (∀ o ∈ ops, o.Plain) ∧ (contAfter .doc (.empty false) ops).dict = [t!"b", t!"c"] ∧
      (contAfter .doc (.empty false) ops).asString = t!"b = true\n# c\nc = 3\n" := by
  refine ⟨?_, by decide +kernel⟩
  intro o ho
  simp only [List.mem_cons, List.not_mem_nil, or_false] at ho
  rcases ho with rfl | rfl | rfl | rfl | rfl | rfl | rfl | rfl <;> first | rfl | trivial | exact Or.inr rfl

/-! ## C13 -/

/-- **C13.** Take any document in which lookup and rendering agree everywhere — every parsed document is one — and any
sequence of assignments, appends (dotted keys and tables included), comments and deletions, each at the document or at
any table, inline table, array-of-tables element or table written in several places inside it, with items that are
themselves consistent. If the operations return, then lookup and rendering agree everywhere in the result: every cached
position is an entry with that key, every entry with a key is reachable, no key is lost or doubled. -/
theorem C13_histories (c c' : Cont) (ops : List (List Step × Op)) (hc : Every Consistent c)
    (hv : ∀ p ∈ ops, ∀ v, p.2.item? = some v → EveryItem Consistent v) (h : c.history ops = .ok c') :
    Every Consistent c' := by
  rw [every_iff] at *
  refine history_deep hc ?_ h
  intro p hp v hpv
  exact (everyItem_iff v).1 (hv p hp v hpv)

/-- **C13**, from a text. -/
theorem C13_parse_then_edit (s : Str) (c c' : Cont) (hp : parse s = .ok c) (ops : List (List Step × Op))
    (hv : ∀ p ∈ ops, ∀ v, p.2.item? = some v → EveryItem Consistent v) (h : c.history ops = .ok c') :
    Every Consistent c' :=
  C13_histories c c' ops ((every_iff c).2 ((parse_all s).1 c hp)) hv h

/-- The lookup of a container in words: `d[k]` finds an entry if and only if one with that key is rendered. -/
theorem C13_lookup_is_rendered (c : Cont) (hc : Consistent c) (k : Str) :
    c.item k = .error .nonExistentKey ↔ ¬ ∃ i v, HoldsAt c i k v := by
  have hw := WF_of_consistent hc
  rw [← hc.keys.2, hw.dictMem]
  unfold Cont.item
  rcases hm : mapGet k c.map with _ | is
  · simp
  · rcases is with _ | ⟨i, _ | ⟨j, r⟩⟩
    · exact absurd rfl (hc.once.2 k _ hm).1
    · obtain ⟨v, key, hb, _⟩ := hc.cached k _ hm i (List.mem_cons_self ..)
      simp [hb]
    · simp

set_option maxRecDepth 10000 in
/-- a history with a table in several places, an inline table and an array of tables -/
example : ((parse (t!"[a.b]\nx = 1\n[c]\ni = {p = 1}\n[a.d]\ny = 2\n[[e]]\nz = 1\n")).toOption.bind fun c =>
    (c.history [([.key (t!"a")], .remove (t!"d")), ([.key (t!"c"), .key (t!"i")], .set (t!"q") (intItem 5)),
      ([.elem (t!"e") 0], .append (t!"w") (intItem 6)), ([], .set (t!"new") (intItem 7))]).toOption).map
        (fun c => (c.asString, mapGet (t!"a") c.map)) =
    some (t!"new = 7\n[a.b]\nx = 1\n[c]\ni = {p = 1,q = 5}\n[[e]]\nz = 1\nw = 6\n", some [1]) := by
  decide +kernel

end Tomlkit
