import Verif.Proofs.Swap
import Verif.Props.Containers
/-!
# C39: replacing a value by a table, or a table by a value, leaves the other keys where they belong
-/
namespace Tomlkit
open Spec

theorem textOf_null (A B : List Entry) : textOf (A ++ Entry.nullEntry :: B) = textOf A ++ textOf B := by
  unfold textOf
  rw [List.flatMap_append, List.flatMap_cons]
  rfl

theorem textOf_append (A B : List Entry) : textOf (A ++ B) = textOf A ++ textOf B := by
  unfold textOf; rw [List.flatMap_append]

theorem textOf_cons (e : Entry) (B : List Entry) : textOf (e :: B) = e.render none none ++ textOf B := by
  unfold textOf; rw [List.flatMap_cons]

/-- **C39**, a table for a value. The document is written as: entries `A` without a header, the value of `k`, entries `B`
without tables, then entries `T` that all have a header. `doc[k] = v` for a table or array of tables `v` returns; the text
is then the text of the other entries, unchanged and in their order, with the table at one place: no header is before that
place, so what is before it still belongs to the document, and everything with a key after that place has a header of its
own, so nothing is taken over by the new table. What `v` holds is held there. -/
theorem C39_table_for_value (c : Cont) (hc : Consistent c) (k : Str) (A B T : List Entry) (key : SKey) (old v : Item)
    (hb : c.body = A ++ .mk (some key) old :: (B ++ T)) (hk : key.key = k) (hold : old.isTableLike = false)
    (hv : v.isTableLike = true) (hA : NoHeader A) (hB : ∀ e ∈ B, e.v.isTableLike = false) (hT : OnlyHeaders T) :
    ∃ c' A' T' w, Op.run .doc c (.set k v) = .ok c' ∧ Consistent c' ∧ c'.item k = .ok (.inl w) ∧
      (∀ x, Holds x v → Holds x w) ∧ w.isTableLike = true ∧ NoHeader A' ∧ OnlyHeaders T' ∧
      textOf A' ++ textOf T' = textOf A ++ textOf B ++ textOf T ∧
      A' ++ T' = A ++ Entry.nullEntry :: (B ++ T) ∧
      dumps c' = textOf A' ++ (Entry.mk (some (mkKey k)) w).render none none ++ textOf T' := by
  have hw := WF_of_consistent hc
  obtain ⟨c', A', T', w, h1, h2, h3, h4, h5, h6, h7⟩ := replace_by_table hw hb hk hold hv hA hB hT
  have hw' := hw.setItem h1
  have hcc := consistent_of_WF hw'
  refine ⟨c', A', T', w, h1, hcc, ?_, h6, h7, h4, h5, ?_, h2, ?_⟩
  · have hat : c'.body[A'.length]? = some (.mk (some (mkKey k)) w) := by rw [h3]; exact get_at _ _ _ rfl
    have hholds : HoldsAt c' A'.length k w := ⟨mkKey k, hat, mkKey_key k⟩
    obtain ⟨is, hm, hmi⟩ := hcc.reachable _ _ _ hholds
    obtain ⟨hne, hnd⟩ := hcc.once.2 k is hm
    -- any other place would be a place in the old document, where the key was there once
    have hall : ∀ j ∈ is, j = A'.length := by
      intro j hj
      by_cases hji : j = A'.length
      · exact hji
      exfalso
      obtain ⟨u, ku, hu, hku⟩ := hcc.cached k is hm j hj
      have hmem : Entry.mk (some ku) u ∈ A' ++ T' := by
        rw [h3] at hu
        rcases Nat.lt_trichotomy j A'.length with hlt | heq | hgt
        · rw [List.getElem?_append_left hlt] at hu
          exact List.mem_append_left _ (List.mem_of_getElem? hu)
        · exact absurd heq hji
        · rw [List.getElem?_append_right (by omega)] at hu
          obtain ⟨q, hq⟩ : ∃ q, j - A'.length = q + 1 := ⟨j - A'.length - 1, by omega⟩
          rw [hq, List.getElem?_cons_succ] at hu
          exact List.mem_append_right _ (List.mem_of_getElem? hu)
      rw [h2] at hmem
      have hold' : HoldsAt c A.length k old := ⟨key, by rw [hb]; exact get_at _ _ _ rfl, hk⟩
      rw [List.mem_append, List.mem_cons] at hmem
      have hother : ∃ q, q ≠ A.length ∧ HoldsAt c q k u := by
        rcases hmem with hmem | hmem | hmem
        · obtain ⟨q, hq⟩ := List.getElem?_of_mem hmem
          have hlt := (List.getElem?_eq_some_iff.1 hq).1
          exact ⟨q, by omega, ku, by rw [hb, List.getElem?_append_left hlt]; exact hq, hku⟩
        · cases hmem
        · obtain ⟨q, hq⟩ := List.getElem?_of_mem hmem
          refine ⟨A.length + 1 + q, by omega, ku, ?_, hku⟩
          rw [hb, List.getElem?_append_right (by omega)]
          have : A.length + 1 + q - A.length = q + 1 := by omega
          rw [this, List.getElem?_cons_succ]; exact hq
      obtain ⟨q, hq1, hq2⟩ := hother
      have := (hc.parts q A.length k u old hq2 hold' hq1).2
      simp [Item.isTableLike, this] at hold
    have hone : is = [A'.length] := by
      rcases is with _ | ⟨a, _ | ⟨b, r⟩⟩
      · exact absurd rfl hne
      · rw [hall a (by simp)]
      · rw [hall a (by simp), hall b (by simp)] at hnd
        simp at hnd
    subst hone
    exact item_single.2 ⟨_, _, hm, hat, rfl⟩
  · have := congrArg textOf h2
    rw [textOf_append, textOf_null, textOf_append, ← List.append_assoc] at this
    exact this
  · rw [dumps_textOf, h3, textOf_append, textOf_cons, List.append_assoc]

/-- **C39**, a value for a table. The key is written once, as a table, and no header is written before it, or no table after
it. `doc[k] = v` for a value `v` returns; the text is then the text of the other entries, with the line of `k` at one place
before which there is no header (the line before it is closed if it was open): `k` is a key of the document, and every
other entry belongs where it belonged. -/
theorem C39_value_for_table (c : Cont) (hp : c.parsed = false) (k : Str) (A B : List Entry) (key : SKey) (old v : Item)
    (hb : c.body = A ++ .mk (some key) old :: B) (hk : key.key = k) (hm : mapGet k c.map = some [A.length])
    (hold : old.isTableLike = true) (hv : v.isTableLike = false)
    (hside : NoHeader A ∨ ∀ e ∈ B, e.v.isTableLike = false) :
    ∃ c' A0 A' T', Op.run .doc c (.set k v) = .ok c' ∧ NoHeader A0 ∧ ClosesLine A0 A' ∧
      textOf A0 ++ textOf T' = textOf A ++ textOf B ∧
      A0 ++ T' = A ++ Entry.nullEntry :: B ∧
      dumps c' = textOf A' ++ (Entry.mk (some (mkKey k)) v).render none none ++ textOf T' := by
  obtain ⟨c', A0, A', T', h1, h2, h3, h4, h5⟩ := replace_by_value hp hb hk hm hold hv hside
  refine ⟨c', A0, A', T', h1, h5, h4, ?_, h2, ?_⟩
  · have := congrArg textOf h2
    rw [textOf_append, textOf_null] at this
    exact this
  · rw [dumps_textOf, h3, textOf_append, textOf_cons, List.append_assoc]

/-- `table()` -/
def newTable : Item := .table (.mk (.empty false) {} false none none none)

/-- the text after one operation on the document read from a text -/
def textAfter (s : Str) (op : Op) : Option Str :=
  (parse s).toOption.bind fun c => (Op.run .doc c op).toOption.map dumps

set_option maxRecDepth 10000 in
/-- Without the condition on dotted keys the claim is false: `parse("a = 1\nc.d = 1\nb = 2\n[t]")`, then `doc["a"] = table()`,
writes `[a]` before the two other keys, which now belong to `a`. -/
theorem C39_counterexample_dotted :
    textAfter (t!"a = 1\nc.d = 1\nb = 2\n[t]") (.set (t!"a") newTable) = some (t!"[a]\n\nc.d = 1\nb = 2\n[t]") := by
  decide +kernel

set_option maxRecDepth 10000 in
/-- Nor is it true for a table between tables: `parse("[t0]\n[t1]\n[t2]\n")`, then `doc["t1"] = 7`, writes `t1 = 7` into `t0`. -/
theorem C39_counterexample_between :
    textAfter (t!"[t0]\n[t1]\n[t2]\n") (.set (t!"t1") (intItem 7)) = some (t!"[t0]\nt1 = 7\n[t2]\n") := by
  decide +kernel

set_option maxRecDepth 10000 in
/-- the cases of the theorems on real texts -/
example : textAfter (t!"a.x = 1\nb = 2\nc = 3\n\n# t\n[t]\nu = 1\n") (.set (t!"b") newTable) =
      some (t!"a.x = 1\nc = 3\n\n# t\n[b]\n\n[t]\nu = 1\n") ∧
    textAfter (t!"a = 1\nb = 2") (.set (t!"a") newTable) = some (t!"b = 2\n[a]\n") ∧
    textAfter (t!"x = 1\n[t0]\n[t1]") (.set (t!"t1") (intItem 7)) = some (t!"x = 1\nt1 = 7\n[t0]\n") ∧
    textAfter (t!"x = 1\n[t0]\n[t1]") (.set (t!"t0") (intItem 7)) = some (t!"x = 1\nt0 = 7\n[t1]") :=
  ⟨by decide +kernel, by decide +kernel, by decide +kernel, by decide +kernel⟩

/-- does the document meet the conditions of `C39_table_for_value` for the key at position `i` and the split at `j`? -/
def meetsSwap (c : Cont) (i j : Nat) : Bool :=
  (c.body.take i).all (fun e => !opensTable e) && ((c.body.drop (i + 1)).take j).all (fun e => !e.v.isTableLike) &&
    ((c.body.drop (i + 1)).drop j).all (fun e => !e.key.isSome || opensTable e)

set_option maxRecDepth 10000 in
/-- the conditions hold for the first of these texts -/
example : ((parse (t!"a.x = 1\nb = 2\nc = 3\n\n# t\n[t]\nu = 1\n")).toOption.map fun c => meetsSwap c 1 3) = some true := by
  decide +kernel

end Tomlkit
