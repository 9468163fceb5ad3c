import Verif.Proofs.Mapping
import Verif.Model.Api
/-!
# C44: the methods inherited from `MutableMapping`
-/
namespace Tomlkit
open Spec

/-- **C44**, one method. On a document, table or inline table that shows the dictionary `d` and holds no tables: `pop`,
`setdefault`, `update` (`|=`) and `clear` return exactly if they do on `d`, with the same exception otherwise, and
afterwards the container shows the resulting dictionary: same keys, same order, same values. -/
theorem C44_method (h : Holder) (c : Cont) (d : Dict) (hc : Consistent c) (hf : Flat c) (hs : Shows c d) (o : MapOp)
    (ho : o.Plain) :
    (∀ d', o.onDict d = .ok d' → ∃ c', o.run h c = .ok c' ∧ Consistent c' ∧ Flat c' ∧ Shows c' d') ∧
    (∀ e, o.onDict d = .error e → o.run h c = .error e) := by
  have hi : Is c d := ⟨WF_of_consistent hc, hf, hs⟩
  have done : ∀ {c' d'}, Is c' d' → Consistent c' ∧ Flat c' ∧ Shows c' d' :=
    fun h => ⟨consistent_of_WF h.wf, h.flat, h.shows⟩
  rcases o with o | ⟨k, df⟩ | ⟨k, v⟩ | l | _
  · have := dict_step h hi o ho
    refine ⟨fun d' hd' => ?_, this.2⟩
    obtain ⟨c', h1, h2⟩ := this.1 d' hd'
    exact ⟨c', h1, done h2⟩
  · have hp := pop_is h hi k df
    unfold MapOp.onDict MapOp.run
    dsimp only
    rcases hk : d.has k with _ | _
    · rw [hp.2 hk]
      rcases df with _ | _
      · refine ⟨(fun d' hd' => by cases hd'), ?_⟩
        intro e he; cases he; rfl
      · refine ⟨?_, (fun e he => by cases he)⟩
        intro d' hd'; cases hd'
        exact ⟨c, rfl, done hi⟩
    · obtain ⟨c', v, w, h1, _, _, h2⟩ := hp.1 hk
      refine ⟨?_, (fun e he => by cases he)⟩
      intro d' hd'; cases hd'
      exact ⟨c', by rw [h1]; rfl, done h2⟩
  · obtain ⟨c', w, u, h1, _, h2, _⟩ := setdefault_is h hi k v ho
    unfold MapOp.onDict MapOp.run
    dsimp only
    rw [h1]
    refine ⟨?_, ?_⟩
    · intro d' hd'
      refine ⟨c', rfl, done ?_⟩
      rcases hk : d.has k with _ | _ <;> rw [hk] at hd' h2 <;> cases hd' <;> exact h2
    · intro e he
      rcases hk : d.has k with _ | _ <;> rw [hk] at he <;> cases he
  · obtain ⟨c', h1, h2⟩ := update_is h hi l ho
    refine ⟨?_, (fun e he => by cases he)⟩
    intro d' hd'; cases hd'
    exact ⟨c', h1, done h2⟩
  · refine ⟨?_, (fun e he => by cases he)⟩
    intro d' hd'; cases hd'
    obtain ⟨c', h1, h2, h3, h4, _, h6⟩ := clear_loop h (c.dict.length + 1) c hi.wf (fun k is hk => by
      obtain ⟨i, _, _, rfl, _⟩ := single_of_plain hi.wf (flat_holds hf) hk
      rfl) (by omega)
    refine ⟨c', h1, consistent_of_WF h2, ?_, h3, ?_⟩
    · intro e he
      rcases h6 e he with he | rfl
      · exact hf e he
      · rfl
    · intro k; unfold reads; rw [h4]; rfl

/-- **C44**, histories: any sequence of these methods and of the operations of C12. -/
theorem C44_mapping (h : Holder) (ops : List MapOp) (hops : ∀ o ∈ ops, o.Plain) (c : Cont) (d : Dict)
    (hc : Consistent c) (hf : Flat c) (hs : Shows c d) :
    Shows (contAfterMap h c ops) (d.afterMap ops) ∧ Consistent (contAfterMap h c ops) := by
  induction ops generalizing c d with
  | nil => exact ⟨hs, hc⟩
  | cons o r ih =>
    have hst := C44_method h c d hc hf hs o (hops o (List.mem_cons_self ..))
    have hr : ∀ o ∈ r, o.Plain := fun o ho => hops o (List.mem_cons_of_mem _ ho)
    rcases hd : o.onDict d with e | d'
    · have h1 := hst.2 e hd
      simp only [contAfterMap, Dict.afterMap, hd, h1]
      exact ih hr c d hc hf hs
    · obtain ⟨c', h1, h2, h3, h4⟩ := hst.1 d' hd
      simp only [contAfterMap, Dict.afterMap, hd, h1]
      exact ih hr c' d' h2 h3 h4

/-- **C44**, the results: `get`, `pop` and `setdefault` return the value the dictionary has. -/
theorem C44_results (h : Holder) (c : Cont) (d : Dict) (hc : Consistent c) (hf : Flat c) (hs : Shows c d) (k : Str) :
    (∀ v, d.get k = some v →
      (∃ w, c.get k = .ok (some w) ∧ IsVal w v) ∧
      (∀ df, ∃ c' w, c.pop h k df = .ok (c', some w) ∧ IsVal w v ∧ Shows c' (d.del k)) ∧
      (∀ u, u.isTableLike = false → ∃ w, c.setdefault h k u = .ok (c, w) ∧ IsVal w v)) ∧
    (d.get k = none →
      c.get k = .ok none ∧ c.pop h k true = .ok (c, none) ∧ c.pop h k false = .error .nonExistentKey ∧
      ∀ u, u.isTableLike = false → ∃ c' w, c.setdefault h k u = .ok (c', w) ∧ IsVal w u.pyValue ∧
        Shows c' (d ++ [(k, u.pyValue)])) := by
  have hi : Is c d := ⟨WF_of_consistent hc, hf, hs⟩
  have hhas : (d.get k).isSome = d.has k := by
    unfold Dict.get; rw [Option.isSome_map, find_fst]
  constructor
  · intro v hv
    have hk : d.has k = true := by rw [← hhas, hv]; rfl
    obtain ⟨v', w, h1, h2, h3⟩ := getItem_of_has hi hk
    rw [hv] at h1; cases h1
    refine ⟨⟨w, by unfold Cont.get; rw [h2], h3⟩, fun df => ?_, fun u hu => ⟨w, ?_, h3⟩⟩
    · obtain ⟨c', v1, w1, h4, h5, h6, h7⟩ := (pop_is h hi k df).1 hk
      rw [hv] at h5; cases h5
      exact ⟨c', w1, h4, h6, h7.shows⟩
    · unfold Cont.setdefault
      simp only [h2]
  · intro hv
    have hk : d.has k = false := by rw [← hhas, hv]; rfl
    refine ⟨by unfold Cont.get; rw [(getItem_of_not hi hk).2]; rfl, (pop_is h hi k true).2 hk, (pop_is h hi k false).2 hk, ?_⟩
    intro u hu
    obtain ⟨c', w, x, h1, h2, h3, h4⟩ := setdefault_is h hi k u hu
    rw [hk] at h3 h4
    simp only [Bool.false_eq_true, if_false] at h3 h4
    rw [get_set] at h4; cases h4
    refine ⟨c', w, h1, h2, ?_⟩
    have := h3.shows
    unfold Dict.set at this
    rwa [hk] at this

/-- **C44**, `clear()`, with tables: in a document, table or inline table in which no table is written in several
places, `clear()` returns, no key is left, and what is left in the text are the comments and blank lines that stood
between the keys, in their order. -/
theorem C44_clear (h : Holder) (c : Cont) (hc : Consistent c)
    (hone : ∀ k is, mapGet k c.map = some is → is.length = 1) :
    ∃ c', c.clear h = .ok c' ∧ c'.dict = [] ∧ (∀ k, reads c' k = none) ∧ Consistent c' ∧
      c'.asString = bodyStr (c.body.filter fun e => e.key.isNone) := by
  obtain ⟨c', h1, h2, h3, h4, h5, _⟩ := clear_loop h (c.dict.length + 1) c (WF_of_consistent hc) hone (by omega)
  refine ⟨c', h1, h3, fun k => by unfold reads; rw [h4]; rfl, consistent_of_WF h2, ?_⟩
  rw [keyless_all h2 h3] at h5
  rw [← show bodyStr c'.body = c'.asString by cases c'; rfl, h5]
  rfl

/-- **C44**, `popitem()`: the key removed is the **first** one — unlike `dict.popitem`, which takes the last. -/
theorem C44_popitem (h : Holder) (c : Cont) (d : Dict) (hc : Consistent c) (hf : Flat c) (hs : Shows c d) :
    (d = [] → c.popitem h = none) ∧
    (∀ k v r, d = (k, v) :: r → ∃ c' w, c.popitem h = some (.ok (c', k, w)) ∧ IsVal w v ∧ Shows c' r) := by
  have hi : Is c d := ⟨WF_of_consistent hc, hf, hs⟩
  constructor
  · rintro rfl
    unfold Cont.popitem
    rw [hs.1]; rfl
  · rintro k v r rfl
    have hd : c.dict = k :: r.map Prod.fst := hs.1
    have hk : Dict.has ((k, v) :: r) k = true := by unfold Dict.has; simp
    obtain ⟨v', w, h1, h2, h3⟩ := getItem_of_has hi hk
    have hv : v' = v := by
      unfold Dict.get at h1
      rw [List.find?_cons] at h1
      simp at h1
      exact h1.symm
    subst hv
    obtain ⟨c', h4, h5⟩ := remove_is h hi hk
    refine ⟨c', w, ?_, h3, ?_⟩
    · unfold Cont.popitem
      rw [hd]
      dsimp only
      rw [h2]; dsimp only; rw [h4]
    · have hnd := hc.keys.1
      rw [hd] at hnd
      have : Dict.del ((k, v') :: r) k = r := by
        unfold Dict.del
        rw [List.filter_cons]
        simp only [beq_self_eq_true, Bool.not_true, Bool.false_eq_true, if_false]
        rw [List.filter_eq_self]
        intro x hx
        have hne : x.1 ≠ k := fun e => (List.nodup_cons.1 hnd).1 (e ▸ List.mem_map_of_mem hx)
        simpa using hne
      rw [← this]; exact h5.shows

set_option maxRecDepth 10000 in
/-- `popitem` of `{a: 1, b: 2}` removes `a`; a Python `dict` would remove `b`. -/
theorem C44_counterexample_popitem :
    ((parse (t!"a = 1\nb = 2\n")).toOption.bind fun c => (c.popitem .doc).bind fun r => r.toOption.map fun p =>
      (p.1.asString, p.2.1)) = some (t!"b = 2\n", t!"a") := by
  decide +kernel

theorem consistent_shallow {c : Cont} (hc : Consistent c) : Consistent c.shallow :=
  ⟨hc.cached, hc.reachable, hc.once, hc.keys, hc.parts⟩

/-- **C44**, `d | other`: a new container with the items of `dict.update` on those of `d`. -/
theorem C44_or (h : Holder) (c : Cont) (d : Dict) (hc : Consistent c) (hf : Flat c) (hs : Shows c d) (l : List (Str × Item))
    (hl : ∀ p ∈ l, p.2.isTableLike = false) :
    ∃ c', c.or h l = .ok c' ∧ Consistent c' ∧ Flat c' ∧ Shows c' (d.update (l.map fun p => (p.1, p.2.pyValue))) :=
  (C44_method h c.shallow d (consistent_shallow hc) hf hs (.update l) hl).1 _ rfl

set_option maxRecDepth 10000 in
/-- `doc | {"b": 7, "c": 3}` on a parsed document with a comment -/
example : ((parse (t!"a = 1 # x\nb = 2\n")).toOption.bind fun c => (c.or .doc [(t!"b", intItem 7), (t!"c", intItem 3)]).toOption.map Cont.asString) =
    some (t!"a = 1 # x\nb = 7\nc = 3\n") := by
  decide +kernel

set_option maxRecDepth 10000 in
/-- `pop`, `setdefault`, `update` and `clear` on a parsed document with comments -/
example :
    let ops : List MapOp := [.pop (t!"b") false, .pop (t!"zz") true, .setdefault (t!"a") (intItem 9),
      .setdefault (t!"d") (intItem 4), .update [(t!"a", intItem 7), (t!"e", stringItem (t!"x"))]]
    (∀ o ∈ ops, o.Plain) ∧
    ((parse (t!"# h\na = 1 # c\nb = 2\n\n# e\nc = 3\n")).toOption.map fun c =>
      ((contAfterMap .doc c ops).asString, (contAfterMap .doc c (ops ++ [.clear])).asString)) =
    some (t!"# h\na = 7 # c\n\n# e\nc = 3\nd = 4\ne = \"x\"\n", t!"# h\n\n# e\n") := by
  refine ⟨?_, by decide +kernel⟩
  intro o ho
  simp only [List.mem_cons, List.not_mem_nil, or_false] at ho
  rcases ho with rfl | rfl | rfl | rfl | rfl
  · trivial
  · trivial
  · rfl
  · rfl
  · intro p hp
    simp only [List.mem_cons, List.not_mem_nil, or_false] at hp
    rcases hp with rfl | rfl <;> rfl

end Tomlkit
