import Verif.Proofs.Insert
import Verif.Proofs.Arrays
/-!
# Containers built by assignments of new keys
-/
namespace Tomlkit
open Spec

/-- appending a new key -/
theorem append_new {c : Cont} {validate : Bool} {k : SKey} {v w : Item} (hw : c.prepare (some k) v = .ok w)
    (hk : mapGet k.key c.map = none) :
    Cont.append validate c (some (.single k)) v = (c.appendTail (some k) w).map (·, false) := by
  unfold Cont.append fuelFor
  simp only [Key.parts]
  rw [Cont.append1]
  simp only [Bool.false_and, Bool.false_eq_true, if_false]
  rw [hw]
  dsimp only
  rw [has_absent hk]

theorem setItem_new {c : Cont} {k : Str} {v w : Item} (hw : c.prepare (some (mkKey k)) v = .ok w)
    (hk : mapGet k c.map = none) : c.setItem k v = c.appendTail (some (mkKey k)) w := by
  have hk' : mapGet (mkKey k).key c.map = none := by rw [mkKey_key]; exact hk
  unfold Cont.setItem
  rw [fuelFor, has_absent hk]
  dsimp only
  rw [append_new hw hk']
  rcases c.appendTail (some (mkKey k)) w <;> rfl

theorem setItemIndented_new {c : Cont} {k : Str} {v w : Item} (hw : c.prepare (some (mkKey k)) v = .ok w)
    (hk : mapGet k c.map = none) : c.setItemIndented [] k v = c.appendTail (some (mkKey k)) w := by
  unfold Cont.setItemIndented
  rw [fuelFor, has_absent hk]
  dsimp only
  rw [setItem_new hw hk]
  have : spaceRun [] = none := rfl
  rw [this]
  rcases c.appendTail (some (mkKey k)) w with e | c' <;> dsimp only
  split <;> rfl

/-- an entry for a value that is no table -/
def PlainEntry (e : Entry) : Prop := e.key.isSome = true ∧ e.v.isTableLike = false ∧ e.v.isNull = false ∧ e.v.isWhitespace = false
/-- an entry for a table with a header -/
def TableEntry (e : Entry) : Prop := ∃ k, e.key = some k ∧ k.dotted = false ∧ e.v.isTableLike = true

/-- the state of a container built by assignments: the values, then the tables, each key once -/
structure Built (c : Cont) (ps ts : List Entry) : Prop where
  body : c.body = ps ++ ts
  plain : ∀ e ∈ ps, PlainEntry e
  tables : ∀ e ∈ ts, TableEntry e
  parsed : c.parsed = false
  wf : c.WF
  once : (c.body.map Entry.name).Nodup

theorem built_empty : Built (Cont.empty false) [] [] :=
  ⟨rfl, (fun e he => by cases he), (fun e he => by cases he), rfl, Cont.WF_empty _, by simp [Cont.empty]⟩

theorem lastBeforeTable_built (ps ts : List Entry) (hp : ∀ e ∈ ps, PlainEntry e) (ht : ∀ e ∈ ts, TableEntry e) :
    ∀ i last, lastBeforeTable (ps ++ ts) i last = if ps = [] then last else i + ps.length := by
  induction ps with
  | nil =>
    intro i last
    rw [if_pos rfl, List.nil_append]
    rcases ts with _ | ⟨⟨k, v⟩, r⟩
    · rfl
    · obtain ⟨k', h1, h2, h3⟩ := ht _ (List.mem_cons_self ..)
      rw [Entry.key_mk] at h1
      rw [Entry.v_mk] at h3
      subst h1
      rcases v with _ | _ | _ | _ | _ | _ | _ | _ | _ | _ | _ | tb | ⟨ts, t, nm, p⟩ | _ <;>
        first
        | (simp [Item.isTableLike, Item.isTable, Item.isAoT] at h3; done)
        | (unfold lastBeforeTable; dsimp only; rw [if_pos]; simp [isDottedKey, h2, h3])
  | cons e r ih =>
    intro i last
    obtain ⟨h0, h1, h2, h3⟩ := hp e (List.mem_cons_self ..)
    rcases e with ⟨k, v⟩
    rw [Entry.v_mk] at h1 h2 h3
    rw [if_neg (by simp), List.cons_append]
    have : lastBeforeTable (.mk k v :: (r ++ ts)) i last = lastBeforeTable (r ++ ts) (i + 1) (i + 1) := by
      rcases v with ⟨s, _ | _⟩ | _ | _ | _ | _ | _ | _ | _ | _ | _ | _ | tb | ⟨ts, t, nm, p⟩ | _ <;>
        first
        | (simp [Item.isNull] at h2; done)
        | (simp [Item.isWhitespace] at h3; done)
        | (conv => lhs; unfold lastBeforeTable
           dsimp only; rw [if_neg]; simp [h1])
    rw [this, ih fun e he => hp e (List.mem_cons_of_mem _ he)]
    rw [List.length_cons]
    split
    · rename_i hr; subst hr; rfl
    · omega

/-- close the line of the last value -/
def closeLine (ps : List Entry) : List Entry := addTrailNl (ps.length - 1) ps

theorem modify_left {α : Type} (a b : List α) (f : α → α) {i : Nat} (h : i < a.length) :
    (a ++ b).modify i f = a.modify i f ++ b := by
  apply List.ext_getElem?
  intro j
  rw [List.getElem?_modify]
  rcases Nat.lt_or_ge j a.length with hj | hj
  · rw [List.getElem?_append_left hj, List.getElem?_append_left (by rw [List.length_modify]; exact hj), List.getElem?_modify]
  · rw [List.getElem?_append_right hj, List.getElem?_append_right (by rw [List.length_modify]; exact hj), List.length_modify]
    have : i ≠ j := by omega
    simp [this]

theorem addTrailNl_left (ps ts : List Entry) (h : ps ≠ []) : addTrailNl (ps.length - 1) (ps ++ ts) = closeLine ps ++ ts := by
  have hl : 0 < ps.length := List.length_pos_iff.2 h
  unfold closeLine addTrailNl
  exact modify_left _ _ _ (by omega)

theorem closeLine_name (ps : List Entry) : (closeLine ps).map Entry.name = ps.map Entry.name := by
  rw [← shape_names, ← shape_names]
  unfold closeLine
  rw [addTrailNl_shape]

theorem closeLine_plain {ps : List Entry} (h : ∀ e ∈ ps, PlainEntry e) : ∀ e ∈ closeLine ps, PlainEntry e := by
  intro e he
  unfold closeLine addTrailNl at he
  rcases mem_modify_of he with h1 | ⟨x, hx, rfl⟩
  · exact h e h1
  · obtain ⟨h1, h2, h3, h4⟩ := h x hx
    split
    · exact ⟨h1, h2, h3, h4⟩
    · refine ⟨h1, ?_, ?_, ?_⟩
      · rw [Entry.v_mk, isTableLike_setTrivia]; exact h2
      · rw [Entry.v_mk]
        rcases hv : x.v with _ | _ | _ | _ | _ | _ | _ | _ | _ | _ | _ | ⟨c, t, a, s, n, d⟩ | ⟨ts, t, nm, p⟩ | _ <;>
          rw [hv] at h3 <;> first | rfl | exact h3
      · rw [Entry.v_mk]
        rcases hv : x.v with _ | _ | _ | _ | _ | _ | _ | _ | _ | _ | _ | ⟨c, t, a, s, n, d⟩ | ⟨ts, t, nm, p⟩ | _ <;>
          rw [hv] at h4 <;> first | rfl | exact h4

theorem built_new {c : Cont} {ps ts : List Entry} (h : Built c ps ts) {k : Str} (hk : mapGet k c.map = none) :
    some k ∉ c.body.map Entry.name := by
  intro hm
  have := (h.wf.idx.isSome k).2 (by rw [shape_names]; exact hm)
  rw [hk] at this; cases this

theorem nodup_mid {b ps ts : List Entry} {k : Str} {v : Item} {e : Entry} (hb : b = ps ++ ts) (h : (b.map Entry.name).Nodup)
    (hn : some k ∉ b.map Entry.name) (he : e = .mk (some (mkKey k)) v := by rfl) :
    (ps.map Entry.name ++ e.name :: ts.map Entry.name).Nodup := by
  subst he hb
  have hname : Entry.name (.mk (some (mkKey k)) v) = some k := by show some (mkKey k).key = _; rw [mkKey_key]
  rw [hname]
  rw [List.map_append] at h hn
  exact ((List.perm_middle (a := some k) (l₁ := ps.map Entry.name) (l₂ := ts.map Entry.name)).nodup_iff).2 (List.nodup_cons.2 ⟨hn, h⟩)

/-- a new value goes behind the values -/
theorem built_plain {c : Cont} {ps ts : List Entry} (h : Built c ps ts) {k : Str} {v : Item} (hk : mapGet k c.map = none)
    (h1 : v.isTableLike = false) (h2 : v.isNull = false) (h3 : v.isWhitespace = false) :
    ∃ c', c.setItemIndented [] k v = .ok c' ∧ Built c' (closeLine ps ++ [.mk (some (mkKey k)) v]) ts ∧ c'.dict = c.dict ++ [k] := by
  have hprep : c.prepare (some (mkKey k)) v = .ok v := by
    rcases v with _ | _ | _ | _ | _ | _ | _ | _ | _ | _ | _ | tb | ⟨ts, t, nm, p⟩ | _ <;>
      first | rfl | (simp [Item.isTableLike, Item.isTable, Item.isAoT] at h1)
  have hk' : mapGet (mkKey k).key c.map = none := by rw [mkKey_key]; exact hk
  rw [setItemIndented_new hprep hk]
  have hnew := built_new h hk
  have hdict : dictSet k c.dict = c.dict ++ [k] := dictSet_new (WF.not_mem_dict h.wf hk)
  have hsome : ∃ c', c.appendTail (some (mkKey k)) v = .ok c' ∧ c'.body = closeLine ps ++ .mk (some (mkKey k)) v :: ts ∧
      c'.dict = c.dict ++ [k] ∧ c'.parsed = false := by
    unfold Cont.appendTail
    dsimp only
    by_cases hbe : c.body.isEmpty
    · rw [hbe]
      simp only [Bool.not_true, Bool.false_and, Bool.false_eq_true, if_false]
      rw [rawAppend_new_eq h1 hk']
      rw [List.isEmpty_iff] at hbe
      have hb := h.body
      rw [hbe] at hb
      have hps : ps = [] := by rcases ps with _ | _ <;> first | rfl | cases hb
      have hts : ts = [] := by rcases ts with _ | _ <;> rw [hps] at hb <;> first | rfl | cases hb
      refine ⟨_, rfl, ?_, ?_, h.parsed⟩
      · rw [Cont.body_mk, hbe, hps, hts]; rfl
      · rw [Cont.dict_mk, mkKey_key, hdict]
    · have hcond : (!c.body.isEmpty && !c.parsed && (!v.isTableLike || (mkKey k).dotted)) = true := by simp [hbe, h.parsed, h1]
      rw [if_pos hcond]
      have hp : c.lastIndexBeforeTable = ps.length := by
        unfold Cont.lastIndexBeforeTable
        rw [h.body, lastBeforeTable_built _ _ h.plain h.tables]
        split
        · rename_i hn; rw [hn]; rfl
        · omega
      rw [hp]
      by_cases hlt : ps.length < c.body.length
      · rw [if_pos hlt]
        unfold Cont.insertAt
        rw [if_neg (by omega)]
        have hms : mapGet (mkKey k).key (shiftFrom ps.length c.map) = none := by rw [mapGet_shift, hk']; rfl
        refine ⟨_, rfl, ?_, ?_, h.parsed⟩
        · rw [Cont.body_mk, h.body]
          have : (if (decide (0 < ps.length) && !v.isTableLike) = true then addTrailNl (ps.length - 1) (ps ++ ts) else ps ++ ts) =
              closeLine ps ++ ts := by
            rcases ps with _ | ⟨x, r⟩
            · rfl
            · rw [if_pos (by simp [h1]), addTrailNl_left _ _ (by simp)]
          rw [this]
          refine insertIdx_take _ _ _ ?_
          unfold closeLine; rw [addTrailNl_length]
        · rw [Cont.dict_mk, mkKey_key, hdict]
      · rw [if_neg hlt]
        have hts : ts = [] := by
          rw [h.body, List.length_append] at hlt
          exact List.length_eq_zero_iff.1 (by omega)
        rw [rawAppend_new_eq h1 (by rw [Cont.map_mk]; exact hk')]
        refine ⟨_, rfl, ?_, ?_, h.parsed⟩
        · rw [Cont.body_mk, Cont.body_mk, h.body, hts, List.append_nil]
          rfl
        · rw [Cont.dict_mk, Cont.dict_mk, mkKey_key, hdict]
  obtain ⟨c', e1, e2, e3, e4⟩ := hsome
  refine ⟨c', e1, ⟨by rw [e2]; simp, ?_, h.tables, e4, h.wf.appendTail (fun k' hk0 => ?_) e1, ?_⟩, e3⟩
  · intro e he
    rcases List.mem_append.1 he with he | he
    · exact closeLine_plain h.plain e he
    · rw [List.mem_singleton] at he; subst he; exact ⟨rfl, h1, h2, h3⟩
  · cases hk0
    intro is his
    rw [hk'] at his; cases his
  · rw [e2, List.map_append, List.map_cons, closeLine_name]
    exact nodup_mid h.body h.once hnew

/-- a new table goes to the end -/
theorem built_table {c : Cont} {ps ts : List Entry} (h : Built c ps ts) {k : Str} {v w : Item} (hk : mapGet k c.map = none)
    (hprep : c.prepare (some (mkKey k)) v = .ok w) (h1 : w.isTableLike = true) :
    ∃ c', c.setItemIndented [] k v = .ok c' ∧ Built c' ps (ts ++ [.mk (some (mkKey k)) w]) ∧ c'.dict = c.dict ++ [k] := by
  have hk' : mapGet (mkKey k).key c.map = none := by rw [mkKey_key]; exact hk
  rw [setItemIndented_new hprep hk]
  have hnew := built_new h hk
  have hdict : dictSet k c.dict = c.dict ++ [k] := dictSet_new (WF.not_mem_dict h.wf hk)
  have hdot : (mkKey k).dotted = false := by unfold mkKey; split <;> rfl
  have hsome : ∃ c', c.appendTail (some (mkKey k)) w = .ok c' ∧ c'.body = c.body ++ [.mk (some (mkKey k)) w] ∧
      c'.dict = c.dict ++ [k] ∧ c'.parsed = false := by
    unfold Cont.appendTail
    dsimp only
    rw [if_neg (by simp [h1, hdot])]
    unfold Cont.rawAppend
    simp only [hk']
    refine ⟨_, rfl, rfl, ?_, h.parsed⟩
    rw [Cont.dict_mk, mkKey_key, hdict]
  obtain ⟨c', e1, e2, e3, e4⟩ := hsome
  refine ⟨c', e1, ⟨by rw [e2, h.body]; simp, h.plain, ?_, e4, h.wf.appendTail (fun k' hk0 => ?_) e1, ?_⟩, e3⟩
  · intro e he
    rcases List.mem_append.1 he with he | he
    · exact h.tables e he
    · rw [List.mem_singleton] at he; subst he; exact ⟨_, rfl, hdot, h1⟩
  · cases hk0
    intro is his
    rw [hk'] at his; cases his
  · rw [e2, List.map_append]
    have := nodup_mid (ps := c.body) (ts := []) (e := .mk (some (mkKey k)) w) (by simp) h.once hnew
    simpa using this

theorem mem_of_once {c : Cont} (hw : c.WF) (honce : (c.body.map Entry.name).Nodup) {key : SKey} {v : Item}
    (he : .mk (some key) v ∈ c.body) : ∃ i, mapGet key.key c.map = some [i] ∧ c.body[i]? = some (.mk (some key) v) := by
  obtain ⟨i, hi⟩ := List.getElem?_of_mem he
  have hn : (c.body.map Entry.name)[i]? = some (some key.key) := by rw [List.getElem?_map, hi]; rfl
  obtain ⟨is, h1, h2⟩ := (hw.idx.pos key.key i).1 (by rw [shape_names]; exact hn)
  refine ⟨i, ?_, hi⟩
  rw [h1]
  have hall : ∀ j ∈ is, j = i := by
    intro j hj
    have := hw.idx.at h1 hj
    rw [shape_names] at this
    have hlt := (List.getElem?_eq_some_iff.1 this).1
    exact (List.getElem?_inj hlt honce).1 (by rw [this, hn])
  have hnd := (hw.idx.ok _ _ h1).2
  rcases is with _ | ⟨a, _ | ⟨b, r⟩⟩
  · cases h2
  · rw [hall a (List.mem_cons_self ..)]
  · have ha := hall a (List.mem_cons_self ..)
    have hb := hall b (List.mem_cons_of_mem _ (List.mem_cons_self ..))
    rw [ha, hb, List.nodup_cons] at hnd
    exact absurd (List.mem_cons_self ..) hnd.1

theorem mem_of_nodup_name {c : Cont} {ps ts : List Entry} (h : Built c ps ts) {key : SKey} {v : Item}
    (he : .mk (some key) v ∈ c.body) : ∃ i, mapGet key.key c.map = some [i] ∧ c.body[i]? = some (.mk (some key) v) :=
  mem_of_once h.wf h.once he

end Tomlkit
