import Verif.Spec.AboveEdit
import Verif.Proofs.OverTables
import Verif.Proofs.FlatRows
/-!
# Editing the lines above the tables

The edits of the lines of a document with tables do to its lines what they do to a document of the lines alone, and leave the tables as they are.
-/
namespace Tomlkit
open _root_.Spec Tomlkit.Spec

/-- the positions in the index lie in the body -/
def Cont.InBody (c : Cont) : Prop := ∀ k is, mapGet k c.map = some is → ∀ i ∈ is, i < c.body.length

theorem Cont.WF.inBody {c : Cont} (h : c.WF) : c.InBody := fun k is hm i hi => by
  have := h.idx.lt hm hi
  simpa using this

theorem Over.inBody {c t d : Cont} (h : Over c t d) (hc : c.InBody) (ht : t.InBody) : d.InBody := fun k is hm i hi => by
  rw [h.body, List.length_append]
  rcases hk : mapGet k c.map with _ | js
  · rw [h.below k hk] at hm
    rcases hk' : mapGet k t.map with _ | js <;> rw [hk'] at hm <;> cases hm
    obtain ⟨j, hj, rfl⟩ := List.mem_map.1 hi
    have := ht k js hk' j hj
    show j + c.body.length < _
    omega
  · rw [(h.line k js hk).1] at hm
    cases hm
    have := hc k _ hk i hi
    omega

/-- the line before position `j` is closed -/
def closeBefore (j : Nat) (es : List Entry) : List Entry := if 0 < j then addTrailNl (j - 1) es else es

theorem lastBeforeTable_le (es : List Entry) : lastBeforeTable es 0 0 ≤ es.length := by
  have := (lastBeforeTable_spec es 0 0 (Nat.le_refl _)).1
  omega

/-- where a new line goes, and what happens to the index -/
theorem appendTail_new {z : Cont} (hp : z.parsed = false) (hi : z.InBody) {k : SKey} {v : Item} (hv : v.isTableLike = false) (hk : mapGet k.key z.map = none) :
    ∃ z', z.appendTail (some k) v = .ok z' ∧ z'.body = (closeBefore (lastBeforeTable z.body 0 0) z.body).insertIdx (lastBeforeTable z.body 0 0) (.mk (some k) v) ∧
      (∀ x, mapGet x z'.map = if k.key = x then some [lastBeforeTable z.body 0 0] else
        (mapGet x z.map).map (fun l => l.map fun v => if lastBeforeTable z.body 0 0 ≤ v then v + 1 else v)) ∧
      z'.dict = dictSet k.key z.dict ∧ z'.parsed = false ∧ z'.tableKeys = z.tableKeys := by
  have hle := lastBeforeTable_le z.body
  have hraw : ∀ (x : Str), (mapGet x z.map).map (fun l => l.map fun v => if z.body.length ≤ v then v + 1 else v) = mapGet x z.map := by
    intro x
    rcases hm : mapGet x z.map with _ | is
    · rfl
    · rw [Option.map_some]
      congr 1
      refine (List.map_congr_left fun i hi' => ?_).trans (List.map_id _)
      rw [if_neg (by have := hi x is hm i hi'; omega)]
      rfl
  unfold Cont.appendTail
  dsimp only
  by_cases he : z.body = []
  · rw [if_neg (by simp [he]), rawAppend_new_eq hv hk]
    refine ⟨_, rfl, ?_, fun x => ?_, rfl, hp, rfl⟩
    · rw [Cont.body_mk, he]; rfl
    · have e : lastBeforeTable z.body 0 0 = z.body.length := by rw [he]; rfl
      rw [Cont.map_mk, mapGet_mapSet, e, hraw]
  rw [if_pos (by simp [he, hp, hv])]
  unfold Cont.lastIndexBeforeTable
  by_cases hlt : lastBeforeTable z.body 0 0 < z.body.length
  · rw [if_pos hlt]
    unfold Cont.insertAt
    rw [if_neg (by omega)]
    dsimp only
    refine ⟨_, rfl, ?_, fun x => ?_, rfl, hp, rfl⟩
    · rw [Cont.body_mk]
      unfold closeBefore
      simp [hv]
    · have : mapGet k.key (shiftFrom (lastBeforeTable z.body 0 0) z.map) = none := by rw [mapGet_shift, hk]; rfl
      rw [Cont.map_mk, this]
      dsimp only
      rw [mapGet_mapSet, mapGet_shift]
  · have e : lastBeforeTable z.body 0 0 = z.body.length := by omega
    rw [if_neg hlt, rawAppend_new_eq hv (c := .mk (addTrailNl (z.body.length - 1) z.body) z.map z.dict z.parsed z.tableKeys) hk]
    have hl : (addTrailNl (z.body.length - 1) z.body).length = z.body.length := by unfold addTrailNl; simp
    refine ⟨_, rfl, ?_, fun x => ?_, rfl, hp, rfl⟩
    · have hpos : 0 < z.body.length := List.length_pos_iff.2 he
      rw [Cont.body_mk, Cont.body_mk, e]
      unfold closeBefore
      rw [if_pos hpos]
      conv => rhs; rw [← hl]
      rw [show (addTrailNl (z.body.length - 1) z.body).length = (addTrailNl (z.body.length - 1) z.body ++ []).length by simp]
      have := insertIdx_split (addTrailNl (z.body.length - 1) z.body) [] (.mk (some k) v)
      simp only [List.append_nil] at this ⊢
      rw [hl] at this ⊢
      rw [this]
    · simp only [Cont.map_mk, Cont.body_mk]
      rw [mapGet_mapSet, hl, e, hraw]

/-- the first of the entries, if any, starts a table -/
def Headed (es : List Entry) : Prop := ∀ e, es.head? = some e → e.v.isTableLike = true ∧ isDottedKey e.key = false

theorem lastBefore_over {b : List Entry} (hb : Headed b) : ∀ (a : List Entry) (i last : Nat), (∀ e ∈ a, e.v.isTableLike = false) →
    lastBeforeTable (a ++ b) i last = lastBeforeTable a i last := by
  intro a
  induction a with
  | nil =>
    intro i last _
    rcases b with _ | ⟨⟨k, v⟩, r⟩
    · rfl
    · obtain ⟨h1, h2⟩ := hb _ rfl
      simp only [Entry.v_mk, Entry.key_mk] at h1 h2
      rw [List.nil_append]
      rcases v with _ | _ | _ | _ | _ | _ | _ | _ | _ | _ | _ | tb | ⟨ts, t, nm, p⟩ | _ <;>
        first
        | (simp [Item.isTableLike, Item.isTable, Item.isAoT] at h1; done)
        | (show (if _ then last else _) = last
           rw [if_pos (by rw [h2]; rfl)])
  | cons x a ih =>
    intro i last ha
    have hx := ha x (by simp)
    have ih := fun i last => ih i last fun e he => ha e (by simp [he])
    rcases x with ⟨k, v⟩
    rw [Entry.v_mk] at hx
    rw [List.cons_append]
    rcases v with ⟨s, _ | _⟩ | _ | _ | _ | _ | _ | _ | _ | _ | _ | _ | tb | ⟨ts, t, nm, p⟩ | t <;>
      first
        | exact ih _ _
        | (simp [Item.isTableLike, Item.isTable, Item.isAoT] at hx; done)

theorem closeBefore_over (a b : List Entry) {j : Nat} (hj : j ≤ a.length) : closeBefore j (a ++ b) = closeBefore j a ++ b := by
  unfold closeBefore
  split
  · obtain ⟨i, rfl⟩ : ∃ i, j = i + 1 := ⟨j - 1, by omega⟩
    have hlt : i < a.length := by omega
    obtain ⟨x, y, h1, _, h3⟩ := set_split (List.getElem?_eq_getElem hlt) a[i]
    show addTrailNl i _ = addTrailNl i _ ++ _
    rw [← h3]
    generalize a[i] = e at h1
    subst h1
    rw [List.append_assoc, List.cons_append, addTrailNl_split, addTrailNl_split]
    simp
  · rfl

theorem insertIdx_over (a b : List Entry) (e : Entry) : ∀ {j : Nat}, j ≤ a.length → (a ++ b).insertIdx j e = a.insertIdx j e ++ b := by
  induction a with
  | nil =>
    intro j hj
    obtain rfl : j = 0 := by simpa using hj
    simp
  | cons x a ih =>
    intro j hj
    rcases j with _ | j
    · simp
    · rw [List.cons_append, List.insertIdx_succ_cons, List.insertIdx_succ_cons, ih (by simpa using hj)]; rfl

theorem closeBefore_length (a : List Entry) (j : Nat) : (closeBefore j a).length = a.length := by
  unfold closeBefore addTrailNl
  split <;> simp

variable {c t d : Cont}

/-- a new line -/
theorem Over.new (h : Over c t d) (hf : Flat c) (hc : c.InBody) (ht : t.InBody) (hp : t.parsed = false) (hcp : c.parsed = false) (hh : Headed t.body)
    {k : SKey} {v : Item} (hv : v.isTableLike = false) (hk : mapGet k.key c.map = none) (hk' : mapGet k.key t.map = none) :
    ∃ c' d', c.appendTail (some k) v = .ok c' ∧ d.appendTail (some k) v = .ok d' ∧ Over c' t d' := by
  have hkd : mapGet k.key d.map = none := by rw [h.below _ hk, hk']; rfl
  obtain ⟨c', c1, c2, c3, c4, c5, c6⟩ := appendTail_new hcp hc hv hk
  obtain ⟨d', d1, d2, d3, d4, d5, d6⟩ := appendTail_new (h.parsed.trans hp) (h.inBody hc ht) hv hkd
  have hle := lastBeforeTable_le c.body
  have hlb : lastBeforeTable d.body 0 0 = lastBeforeTable c.body 0 0 := by rw [h.body, lastBefore_over hh _ _ _ hf]
  rw [hlb] at d2 d3
  generalize lastBeforeTable c.body 0 0 = j at *
  have hlen : c'.body.length = c.body.length + 1 := by
    rw [c2, List.length_insertIdx, closeBefore_length, if_pos hle]
  refine ⟨c', d', c1, d1, ?_, fun x is hx => ?_, fun x hx => ?_, fun x => ?_, by rw [d5, hp], by rw [d6, h.keys]⟩
  · rw [d2, c2, h.body, closeBefore_over _ _ hle, insertIdx_over]
    rw [closeBefore_length]; exact hle
  · rw [c3] at hx
    rw [d3]
    split
    · rename_i he
      rw [if_pos he] at hx
      exact ⟨hx, he ▸ hk'⟩
    · rename_i he
      rw [if_neg he] at hx
      rcases hm : mapGet x c.map with _ | js <;> rw [hm] at hx <;> cases hx
      rw [(h.line x js hm).1]
      exact ⟨rfl, (h.line x js hm).2⟩
  · rw [c3] at hx
    split at hx
    · cases hx
    · rename_i he
      rw [d3, if_neg he, hlen]
      rcases hm : mapGet x c.map with _ | js <;> rw [hm] at hx <;> cases hx
      rw [h.below x hm]
      rcases mapGet x t.map with _ | is
      · rfl
      · simp only [Option.map_some, List.map_map]
        congr 1
        refine List.map_congr_left fun i _ => ?_
        simp only [Function.comp]
        rw [if_pos (by omega)]
        omega
  · rw [c4, d4, mem_dictSet, mem_dictSet, h.dict]
    constructor
    · rintro (h | h | h)
      · exact .inl (.inl h)
      · exact .inl (.inr h)
      · exact .inr h
    · rintro ((h | h) | h)
      · exact .inl h
      · exact .inr (.inl h)
      · exact .inr (.inr h)

/-- a line is replaced -/
theorem Over.line_set (h : Over c t d) {i : Nat} (hi : i < c.body.length) (e : Entry) (mc md : List (Str × List Nat))
    (h1 : ∀ x, mapGet x mc = mapGet x c.map) (h2 : ∀ x, mapGet x md = mapGet x d.map) :
    Over (.mk (c.body.set i e) mc c.dict c.parsed c.tableKeys) t (.mk (d.body.set i e) md d.dict d.parsed d.tableKeys) where
  body := by
    simp only [Cont.body_mk]
    rw [h.body, List.set_append_left _ _ hi]
  line := fun k is hk => by
    simp only [Cont.map_mk] at hk ⊢
    rw [h1] at hk
    rw [h2]
    exact h.line k is hk
  below := fun k hk => by
    simp only [Cont.map_mk, Cont.body_mk, List.length_set] at hk ⊢
    rw [h1] at hk
    rw [h2]
    exact h.below k hk
  dict := h.dict
  parsed := h.parsed
  keys := h.keys

/-- a line is removed -/
theorem Over.line_del (h : Over c t d) {i : Nat} (hi : i < c.body.length) {k : Str} (hk : mapGet k t.map = none) (hkd : k ∉ t.dict) :
    Over (.mk (nullAt [i] c.body) (mapDel k c.map) (dictDel k c.dict) c.parsed c.tableKeys) t
      (.mk (nullAt [i] d.body) (mapDel k d.map) (dictDel k d.dict) d.parsed d.tableKeys) where
  body := by
    simp only [Cont.body_mk]
    show d.body.set i _ = c.body.set i _ ++ _
    rw [h.body, List.set_append_left _ _ hi]
  line := fun x is hx => by
    simp only [Cont.map_mk, mapGet_mapDel] at hx ⊢
    split at hx
    · cases hx
    · rename_i he
      rw [if_neg he]
      exact h.line x is hx
  below := fun x hx => by
    have hl : (nullAt [i] c.body).length = c.body.length := by show (c.body.set i _).length = _; simp
    simp only [Cont.map_mk, Cont.body_mk, mapGet_mapDel, hl] at hx ⊢
    split
    · rename_i he
      rw [← he, hk]; rfl
    · rename_i he
      rw [if_neg he] at hx
      exact h.below x hx
  dict := fun x => by
    simp only [Cont.dict_mk]
    unfold dictDel
    simp only [List.mem_filter, h.dict x]
    constructor
    · rintro ⟨h | h, h0⟩
      · exact .inl ⟨h, h0⟩
      · exact .inr h
    · rintro (⟨h, h0⟩ | h0)
      · exact ⟨.inl h, h0⟩
      · refine ⟨.inr h0, ?_⟩
        have : x ≠ k := fun he => hkd (he ▸ h0)
        simpa using this
  parsed := h.parsed
  keys := h.keys

/-- An edit of a line above the tables. -/
theorem Over.edit (h : Over c t d) (hd : FlatDoc c) (ht : t.WF) (hp : t.parsed = false) (hh : Headed t.body) (e : Edit) (he : e.Fit) (ha : ¬ e.addsLine)
    (hk : ∀ k, e.key? = some k → mapGet k t.map = none) :
    (∃ c' d', e.run c = .ok c' ∧ e.run d = .ok d' ∧ Over c' t d') ∨ ∃ x, e.run c = .error x ∧ e.run d = .error x := by
  have hin := hd.wf.inBody
  have hgone : ∀ k, mapGet k t.map = none → mapGet k c.map = none → mapGet k d.map = none := fun k h1 h2 => by rw [h.below k h2, h1]; rfl
  have hsingle : ∀ k is, mapGet k c.map = some is → ∃ i key old, is = [i] ∧ c.body[i]? = some (.mk (some key) old) ∧ key.key = k ∧ old.isTableLike = false :=
    fun k is hm => single_of_plain hd.wf (flat_holds hd.flat) hm
  have hbody : ∀ i e, c.body[i]? = some e → i < c.body.length ∧ d.body[i]? = some e := fun i e hb => by
    have hlt := (List.getElem?_eq_some_iff.1 hb).1
    refine ⟨hlt, ?_⟩
    rw [h.body, List.getElem?_append_left hlt]
    exact hb
  cases e with
  | comment s => exact absurd trivial ha
  | nl => exact absurd trivial ha
  | set k w p =>
    have hk := hk k rfl
    obtain ⟨v, hv, hm⟩ := oneLine_made he
    have hrun : ∀ z : Cont, (Edit.set k w p).run z = z.setItem k v := fun z => by
      unfold Edit.run; dsimp only; rw [hv]; rfl
    rw [hrun, hrun]
    rcases hmc : mapGet k c.map with _ | is
    · have hmd := hgone k hk hmc
      obtain ⟨c', d', h1, h2, h3⟩ := h.new hd.flat hin ht.inBody hp hd.parsed hh (k := mkKey k) hm.put.reads.1 (by rw [mkKey_key]; exact hmc) (by rw [mkKey_key]; exact hk)
      refine .inl ⟨c', d', ?_, ?_, h3⟩
      · unfold Cont.setItem
        rw [fuelFor, has_absent hmc]
        dsimp only
        rw [append_plain_new hm.put.reads.1 (by rw [mkKey_key]; exact hmc), h1]; rfl
      · unfold Cont.setItem
        rw [fuelFor, has_absent hmd]
        dsimp only
        rw [append_plain_new hm.put.reads.1 (by rw [mkKey_key]; exact hmd), h2]; rfl
    · obtain ⟨i, key, old, rfl, hb, hkk, hpl⟩ := hsingle k is hmc
      have hmd := (h.line k _ hmc).1
      obtain ⟨hlt, hb'⟩ := hbody i _ hb
      refine .inl ⟨_, _, ?_, ?_, h.line_set hlt (.mk (some key) (retrivia v old)) (mapSet k [i] (mapDel k c.map)) (mapSet k [i] (mapDel k d.map)) (fun x => ?_) (fun x => ?_)⟩
      · unfold Cont.setItem
        rw [fuelFor, has_single hmc, hmc]
        dsimp only
        rw [replaceAt_plain hb hkk hpl hm.put.reads.1]
      · unfold Cont.setItem
        rw [fuelFor, has_single hmd, hmd]
        dsimp only
        rw [replaceAt_plain hb' hkk hpl hm.put.reads.1]
      · rw [mapGet_mapSet, mapGet_mapDel]
        split
        · rename_i he; rw [← he, hmc]
        · rfl
      · rw [mapGet_mapSet, mapGet_mapDel]
        split
        · rename_i he; rw [← he, hmd]
        · rfl
  | add k w p =>
    have hk := hk k rfl
    obtain ⟨v, hv, hm⟩ := oneLine_made he
    have hrun : ∀ z : Cont, (Edit.add k w p).run z = (Cont.append true z (some (.single (mkKey k))) v).map Prod.fst := fun z => by
      unfold Edit.run; dsimp only; rw [hv]; rfl
    rw [hrun, hrun]
    rcases hmc : mapGet k c.map with _ | is
    · have hmd := hgone k hk hmc
      obtain ⟨c', d', h1, h2, h3⟩ := h.new hd.flat hin ht.inBody hp hd.parsed hh (k := mkKey k) hm.put.reads.1 (by rw [mkKey_key]; exact hmc) (by rw [mkKey_key]; exact hk)
      refine .inl ⟨c', d', ?_, ?_, h3⟩
      · rw [append_plain_new hm.put.reads.1 (by rw [mkKey_key]; exact hmc), h1]; rfl
      · rw [append_plain_new hm.put.reads.1 (by rw [mkKey_key]; exact hmd), h2]; rfl
    · obtain ⟨i, key, old, rfl, hb, hkk, hpl⟩ := hsingle k is hmc
      have hmd := (h.line k _ hmc).1
      obtain ⟨hlt, hb'⟩ := hbody i _ hb
      refine .inr ⟨.keyAlreadyPresent, ?_, ?_⟩
      · rw [append_present (by rw [mkKey_key]; exact hmc) hb hpl]; rfl
      · rw [append_present (by rw [mkKey_key]; exact hmd) hb' hpl]; rfl
  | remove k =>
    have hk := hk k rfl
    have hrun : ∀ z : Cont, (Edit.remove k).run z = z.remove k := fun z => rfl
    rw [hrun, hrun]
    unfold Cont.remove
    rcases hmc : mapGet k c.map with _ | is
    · rw [hgone k hk hmc]
      exact .inr ⟨_, rfl, rfl⟩
    · obtain ⟨i, key, old, rfl, hb, hkk, hpl⟩ := hsingle k is hmc
      rw [(h.line k _ hmc).1]
      obtain ⟨hlt, hb'⟩ := hbody i _ hb
      exact .inl ⟨_, _, rfl, rfl, h.line_del hlt hk (WF.not_mem_dict ht hk)⟩
  | note k s =>
    have hk := hk k rfl
    have hrun : ∀ z : Cont, (Edit.note k s).run z = z.note k s := fun z => rfl
    rw [hrun, hrun]
    unfold Cont.note
    rcases hmc : mapGet k c.map with _ | is
    · rw [hgone k hk hmc]
      exact .inr ⟨_, rfl, rfl⟩
    · obtain ⟨i, key, old, rfl, hb, hkk, hpl⟩ := hsingle k is hmc
      rw [(h.line k _ hmc).1]
      obtain ⟨hlt, hb'⟩ := hbody i _ hb
      dsimp only
      rw [modify_set hb, modify_set hb']
      exact .inl ⟨_, _, rfl, rfl, h.line_set hlt _ _ _ (fun _ => rfl) (fun _ => rfl)⟩

/-- The edits of the lines above the tables. -/
theorem Over.after {q z : Prop} (ht : t.WF) (hp : t.parsed = false) (hh : Headed t.body) (es : List Edit) (he : ∀ e ∈ es, e.Fit) (ha : ∀ e ∈ es, ¬ e.addsLine)
    (hk : ∀ e ∈ es, ∀ k, e.key? = some k → mapGet k t.map = none) : ∀ {c d : Cont} {ls : List Line}, Over c t d → Ed q z c ls →
    ∃ c', Over c' t (docAfter d es) ∧ Ed q z c' (linesAfter ls es) := by
  induction es with
  | nil => intro c d ls h hc; exact ⟨c, h, hc⟩
  | cons e r ih =>
    intro c d ls h hc
    have ih := @ih (fun x hx => he x (by simp [hx])) (fun x hx => ha x (by simp [hx])) (fun x hx => hk x (by simp [hx]))
    have hs := hc.step (he e (by simp)) (fun h0 => absurd h0 (ha e (by simp)))
    have ho := h.edit hc.doc ht hp hh e (he e (by simp)) (ha e (by simp)) (hk e (by simp))
    unfold docAfter linesAfter
    rcases hl : e.onLines ls with err | ls'
    · rcases ho with ⟨c', d', h1, h2, h3⟩ | ⟨x, h1, h2⟩
      · rw [hs.2 err hl] at h1; cases h1
      · rw [h2]
        exact ih h hc
    · obtain ⟨c1, h4, h5⟩ := hs.1 ls' hl
      rcases ho with ⟨c', d', h1, h2, h3⟩ | ⟨x, h1, h2⟩
      · rw [h4] at h1; cases h1
        rw [h2]
        exact ih h3 h5
      · rw [h4] at h1; cases h1

end Tomlkit
