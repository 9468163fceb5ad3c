import Verif.Proofs.AppendCases
/-!
# Consistency of all containers inside an item
-/
namespace Tomlkit

mutual
/-- every container inside the item has the property -/
def Item.Good (W : Cont → Prop) : Item → Prop
  | .array gs _ _ => goodGroups W gs
  | .inline c _ _ => c.Good W
  | .table tb => tb.Good W
  | .aot ts _ _ _ => goodTables W ts
  | _ => True
termination_by structural i => i
@[inherit_doc Item.Good]
def goodGroups (W : Cont → Prop) : List AGroup → Prop
  | [] => True
  | g :: r => g.Good W ∧ goodGroups W r
termination_by structural g => g
@[inherit_doc Item.Good]
def AGroup.Good (W : Cont → Prop) : AGroup → Prop
  | .noval .. => True
  | .val _ v _ _ => v.Good W
termination_by structural g => g
@[inherit_doc Item.Good]
def Tbl.Good (W : Cont → Prop) : Tbl → Prop
  | .mk c _ _ _ _ _ => c.Good W
termination_by structural t => t
@[inherit_doc Item.Good]
def Cont.Good (W : Cont → Prop) : Cont → Prop
  | .mk b m d p tk => W (.mk b m d p tk) ∧ goodEntries W b
termination_by structural c => c
@[inherit_doc Item.Good]
def goodEntries (W : Cont → Prop) : List Entry → Prop
  | [] => True
  | e :: r => e.Good W ∧ goodEntries W r
termination_by structural e => e
@[inherit_doc Item.Good]
def Entry.Good (W : Cont → Prop) : Entry → Prop
  | .mk _ v => v.Good W
termination_by structural e => e
@[inherit_doc Item.Good]
def goodTables (W : Cont → Prop) : List Tbl → Prop
  | [] => True
  | t :: r => t.Good W ∧ goodTables W r
termination_by structural t => t
end

/-- A property of single containers that the operations of the library keep. -/
structure Closed (W : Cont → Prop) : Prop where
  wf : ∀ {c}, W c → c.WF
  shape : ∀ {c b}, W c → b.map Entry.shape = c.body.map Entry.shape → W (.mk b c.map c.dict c.parsed c.tableKeys)
  copy : ∀ {c}, W c → W (.mk c.body c.map (dictOfBody c.body) c.parsed c.tableKeys)
  append1 : ∀ {n al validate c key item c' mv}, W c → Cont.append1 n al validate c key item = .ok (c', mv) → W c'
  one : ∀ k v, W (.mk [.mk (some k) v] [(k.key, [0])] [k.key] true (if v.isTable then [k.key] else []))
  empty : W (.empty true)

section
variable {W : Cont → Prop}

theorem goodGroups_iff (gs : List AGroup) : goodGroups W gs ↔ ∀ g ∈ gs, g.Good W := by
  induction gs with
  | nil => simp [goodGroups]
  | cons g r ih => simp [goodGroups, ih]

theorem goodEntries_iff (es : List Entry) : goodEntries W es ↔ ∀ e ∈ es, e.v.Good W := by
  induction es with
  | nil => simp [goodEntries]
  | cons e r ih => cases e; simp [goodEntries, Entry.Good, ih]

theorem goodTables_iff (ts : List Tbl) : goodTables W ts ↔ ∀ t ∈ ts, t.Good W := by
  induction ts with
  | nil => simp [goodTables]
  | cons g r ih => simp [goodTables, ih]

theorem Cont.good_iff (c : Cont) : c.Good W ↔ W c ∧ ∀ e ∈ c.body, e.v.Good W := by
  cases c; simp [Cont.Good, goodEntries_iff]

theorem Tbl.good_iff (t : Tbl) : t.Good W ↔ t.cont.Good W := by cases t; rfl
theorem Item.good_table (t : Tbl) : (Item.table t).Good W ↔ t.Good W := Iff.rfl
theorem Item.good_aot (ts t n p) : (Item.aot ts t n p).Good W ↔ ∀ t ∈ ts, t.Good W := goodTables_iff ts
theorem Item.good_inline (c t n) : (Item.inline c t n).Good W ↔ c.Good W := Iff.rfl
theorem Item.good_array (gs t n) : (Item.array gs t n).Good W ↔ ∀ g ∈ gs, g.Good W := goodGroups_iff gs

theorem Cont.good_empty (hW : Closed W) : (Cont.empty true).Good W :=
  (Cont.good_iff _).2 ⟨hW.empty, by intro e he; cases he⟩

theorem Tbl.setTrivia_good (t : Tbl) (tr : Trivia) : (t.setTrivia tr).Good W ↔ t.Good W := by cases t; rfl
theorem Tbl.setCont_good (t : Tbl) (c : Cont) : (t.setCont c).Good W ↔ c.Good W := by cases t; rfl

theorem Item.setTrivia_good (v : Item) (tr : Trivia) : (v.setTrivia tr).Good W ↔ v.Good W := by
  cases v <;> first | rfl | exact Tbl.setTrivia_good _ _

theorem Item.setName_good (v : Item) (s : Str) : (v.setName s).Good W ↔ v.Good W := by
  rcases v with _ | _ | _ | _ | _ | _ | _ | _ | _ | _ | _ | ⟨⟨⟩⟩ | _ | _ <;> rfl

/-! ### invalidate, deepcopy, stopParsing -/

theorem invalidateBody_shape (m : List (Str × List Nat)) (i : Nat) : (b : List Entry) →
    (invalidateBody m i b).map Entry.shape = b.map Entry.shape
  | [] => rfl
  | .mk none v :: r => by
    unfold invalidateBody
    rw [List.map_cons, List.map_cons, invalidateBody_shape m (i + 1) r]; rfl
  | .mk (some k) v :: r => by
    unfold invalidateBody
    rw [List.map_cons, List.map_cons, invalidateBody_shape m (i + 1) r]
    unfold Entry.invalidate
    split <;> simp [Item.isTable_invalidate]

section
variable (hW : Closed W)
include hW

mutual
theorem Tbl.invalidate_good : (t : Tbl) → t.Good W → t.invalidate.Good W
  | .mk (.mk b m d p tk) t a s n dp, h => by
    have h : W (.mk b m d p tk) ∧ goodEntries W b := h
    exact ⟨hW.shape h.1 (invalidateBody_shape m 0 b), invalidateBody_good m 0 b h.2⟩
theorem invalidateBody_good (m : List (Str × List Nat)) (i : Nat) : (b : List Entry) → goodEntries W b →
    goodEntries W (invalidateBody m i b)
  | [], h => h
  | e :: r, h => ⟨Entry.invalidate_good m i e h.1, invalidateBody_good m (i + 1) r h.2⟩
theorem Entry.invalidate_good (m : List (Str × List Nat)) (i : Nat) : (e : Entry) → e.Good W → (e.invalidate m i).Good W
  | .mk (some k) v, h => by
    unfold Entry.invalidate
    show (if _ then v.invalidate else v).Good W
    split
    · exact Item.invalidate_good v h
    · exact h
  | .mk none v, h => h
theorem Item.invalidate_good : (v : Item) → v.Good W → v.invalidate.Good W
  | .table tb, h => Tbl.invalidate_good tb h
  | .aot ts t n p, h => invalidateAll_good ts h
  | .ws .., h | .comment .., h | .integer .., h | .float .., h | .bool .., h | .datetime .., h | .date .., h
  | .time .., h | .str .., h | .array .., h | .inline .., h | .null .., h => h
theorem invalidateAll_good : (ts : List Tbl) → goodTables W ts → goodTables W (invalidateAll ts)
  | [], h => h
  | t :: r, h => ⟨Tbl.invalidate_good t h.1, invalidateAll_good r h.2⟩
end

end

theorem mem_insertIdx_of {α : Type} {l : List α} {i : Nat} {x a : α} (h : a ∈ l.insertIdx i x) : a = x ∨ a ∈ l := by
  obtain ⟨j, hj⟩ := List.getElem?_of_mem h
  rw [List.getElem?_insertIdx] at hj
  split at hj
  · exact Or.inr (List.mem_of_getElem? hj)
  · split at hj
    · split at hj
      · simp only [Option.some.injEq] at hj; exact Or.inl hj.symm
      · cases hj
    · exact Or.inr (List.mem_of_getElem? hj)

theorem mem_modify_of {α : Type} {l : List α} {i : Nat} {f : α → α} {a : α} (h : a ∈ l.modify i f) :
    a ∈ l ∨ ∃ b ∈ l, a = f b := by
  obtain ⟨j, hj⟩ := List.getElem?_of_mem h
  rw [List.getElem?_modify] at hj
  rcases hx : l[j]? with _ | x <;> rw [hx] at hj
  · cases hj
  · have hm := List.mem_of_getElem? hx
    change some (if i = j then f x else x) = some a at hj
    simp only [Option.some.injEq] at hj
    split at hj
    · exact Or.inr ⟨x, hm, hj.symm⟩
    · exact Or.inl (hj ▸ hm)

theorem aotInsert_good {own : Trivia} {parsed : Bool} {ts : List Tbl} {i : Int} {v : Tbl} (h : ∀ t ∈ ts, t.Good W)
    (hv : v.Good W) : ∀ t ∈ aotInsert own parsed ts i v, t.Good W := by
  have hnl : ∀ t : Tbl, t.Good W → (nlIndent t).Good W := by
    intro t ht; unfold nlIndent; split
    · exact ht
    · exact (Tbl.setTrivia_good _ _).2 ht
  have hins : ∀ (l : List Tbl) (j : Nat) (w : Tbl), (∀ t ∈ l, t.Good W) → w.Good W → ∀ t ∈ l.insertIdx j w, t.Good W := by
    intro l j w hl hw t ht
    rcases mem_insertIdx_of ht with rfl | h2
    · exact hw
    · exact hl t h2
  have hmain : ∀ w : Tbl, w.Good W → ∀ k : Nat, ∀ t ∈ (if parsed = true then ts.insertIdx k w else
      (if (k + 1 < ts.length && ((ts[k + 1]?).map Tbl.truthy).getD false) = true
        then ts.modify (k + 1) nlIndent else ts).insertIdx k
        (match (if (0 < k && 0 < ts.length) = true then ts[k - 1]? else none) with
          | some p => if p.truthy then nlIndent w else w
          | none => w)), t.Good W := by
    intro w hw k
    split
    · exact hins _ _ _ h hw
    · refine hins _ _ _ ?_ ?_
      · split
        · intro t ht
          rcases mem_modify_of ht with h1 | ⟨b, hb, rfl⟩
          · exact h t h1
          · exact hnl _ (h b hb)
        · exact h
      · split
        · split
          · exact hnl _ hw
          · exact hw
        · exact hw
  unfold aotInsert
  rcases spaceRun own.indent with _ | ind
  · exact hmain _ hv _
  · exact hmain _ ((Tbl.setTrivia_good _ _).2 hv) _

theorem aotAppend_good {own : Trivia} {parsed : Bool} {ts : List Tbl} {v : Tbl} (h : ∀ t ∈ ts, t.Good W)
    (hv : v.Good W) : ∀ t ∈ aotAppend own parsed ts v, t.Good W := aotInsert_good h hv

theorem aotFold_good {own : Trivia} {parsed : Bool} (body : List Tbl) {ts : List Tbl} (h : ∀ t ∈ ts, t.Good W)
    (hv : ∀ t ∈ body, t.Good W) : ∀ t ∈ body.foldl (aotAppend own parsed) ts, t.Good W := by
  induction body generalizing ts with
  | nil => exact h
  | cons b r ih =>
    exact ih (aotAppend_good h (hv b (List.mem_cons_self ..))) (fun t ht => hv t (List.mem_cons_of_mem _ ht))

theorem mkAoT_good {body : List Tbl} {n : Option Str} {p : Bool} (hv : ∀ t ∈ body, t.Good W) :
    (mkAoT body n p).Good W := by
  unfold mkAoT
  rw [Item.good_aot]
  exact aotFold_good body (by simp) hv

theorem flushGroup_good {g : GroupSt} (h : ∀ v, g.v = some v → v.Good W) : ∀ x ∈ flushGroup g, x.Good W := by
  intro x hx
  unfold flushGroup at hx
  split at hx
  · simp only [List.mem_singleton] at hx; subst hx
    unfold GroupSt.toGroup
    rcases hg : g.v with _ | v
    · trivial
    · exact h v hg
  · cases hx

theorem getD_good {o : Option Item} (h : ∀ v, o = some v → v.Good W) : (o.getD Item.nullItem).Good W := by
  rcases o with _ | v
  · trivial
  · exact h v rfl

theorem groupLoop_good (l : List Item) : ∀ (g : GroupSt), (∀ v, g.v = some v → v.Good W) → (∀ i ∈ l, i.Good W) →
    ∀ x ∈ groupLoop g l, x.Good W := by
  induction l with
  | nil => intro g hg _ x hx; exact flushGroup_good hg x hx
  | cons a r ih =>
    intro g hg hl x hx
    have hr : ∀ i ∈ r, i.Good W := fun i hi => hl i (List.mem_cons_of_mem _ hi)
    have ha : a.Good W := hl a (List.mem_cons_self ..)
    have hdata : ∀ it : Item, it.Good W → (x ∈ match g.v with
        | none => groupLoop { g with v := some it } r
        | some _ => flushGroup g ++ groupLoop { v := some it } r) → x.Good W := by
      intro it hit hx
      rcases hgv : g.v with _ | v <;> rw [hgv] at hx <;> dsimp only at hx
      · exact ih _ (by intro v hv; cases hv; exact hit) hr x hx
      · rcases List.mem_append.1 hx with hx | hx
        · exact flushGroup_good hg x hx
        · exact ih _ (by intro v hv; cases hv; exact hit) hr x hx
    cases a with
    | ws s f =>
      simp only [groupLoop] at hx
      split at hx
      · rcases List.mem_append.1 hx with hx | hx
        · exact flushGroup_good hg x hx
        · exact ih _ (by intro v hv; cases hv) hr x hx
      · exact ih _ (by intro v hv; cases hv; exact getD_good hg) hr x hx
    | comment t =>
      simp only [groupLoop] at hx
      exact ih _ (by intro v hv; cases hv; exact getD_good hg) hr x hx
    | _ => exact hdata _ ha hx

theorem groupValues_good {l : List Item} (h : ∀ i ∈ l, i.Good W) : ∀ x ∈ groupValues l, x.Good W :=
  groupLoop_good l {} (by intro v hv; cases hv) h

theorem groupItems_good {gs : List AGroup} (h : ∀ g ∈ gs, g.Good W) : ∀ i ∈ groupItems gs, i.Good W := by
  intro i hi
  unfold groupItems at hi
  obtain ⟨g, hg, hig⟩ := List.mem_flatMap.1 hi
  have := h g hg
  cases g with
  | noval a b c =>
    simp only [AGroup.items, List.mem_append, Option.mem_toList, Option.map_eq_some_iff] at hig
    rcases hig with (⟨_, _, rfl⟩ | ⟨_, _, rfl⟩) | ⟨_, _, rfl⟩ <;> trivial
  | val a v b c =>
    simp only [AGroup.items, List.mem_append, Option.mem_toList, Option.map_eq_some_iff, List.mem_singleton] at hig
    rcases hig with ((⟨_, _, rfl⟩ | rfl) | ⟨_, _, rfl⟩) | ⟨_, _, rfl⟩
    · trivial
    · exact this
    · trivial
    · trivial

theorem Item.isTable_deepCopy (v : Item) : v.deepCopy.isTable = v.isTable := by
  cases v <;> rfl

theorem dictOfBody_spec (b : List Entry) :
    (dictOfBody b).Nodup ∧ ∀ k, k ∈ dictOfBody b ↔ some k ∈ b.map Entry.name := by
  unfold dictOfBody
  suffices H : ∀ (b : List Entry) (d : List Str), d.Nodup →
      (b.foldl (fun d e => match e.key with | some k => dictSet k.key d | none => d) d).Nodup ∧
      ∀ k, k ∈ b.foldl (fun d e => match e.key with | some k => dictSet k.key d | none => d) d ↔
        k ∈ d ∨ some k ∈ b.map Entry.name by
    obtain ⟨h1, h2⟩ := H b [] List.nodup_nil
    refine ⟨h1, fun k => ?_⟩
    exact (h2 k).trans (by simp)
  intro b
  induction b with
  | nil => intro d hd; exact ⟨hd, by simp⟩
  | cons e r ih =>
    intro d hd
    rcases hk : e.key with _ | k
    · simp only [List.foldl_cons, hk]
      obtain ⟨h1, h2⟩ := ih d hd
      refine ⟨h1, ?_⟩
      intro k; rw [h2]; simp [Entry.name, hk]
    · simp only [List.foldl_cons, hk]
      obtain ⟨h1, h2⟩ := ih (dictSet k.key d) (dictSet_nodup hd)
      refine ⟨h1, ?_⟩
      intro k'; rw [h2, mem_dictSet]; simp [Entry.name, hk, or_assoc, or_comm, or_left_comm]

theorem deepCopyEntries_shape : (b : List Entry) → b.deepCopyEntries.map Entry.shape = b.map Entry.shape
  | [] => rfl
  | .mk k v :: r => by
    unfold List.deepCopyEntries
    rw [List.map_cons, List.map_cons, deepCopyEntries_shape r]
    unfold Entry.deepCopy
    simp [Item.isTable_deepCopy]

section
variable (hW : Closed W)
include hW
mutual
theorem Item.deepCopy_good : (v : Item) → v.Good W → v.deepCopy.Good W
  | .array gs t ml, h => by
    unfold Item.deepCopy
    rw [Item.good_array]
    refine groupValues_good (groupItems_good ?_)
    rw [← goodGroups_iff]
    exact deepCopyGroups_good gs h
  | .inline c t n, h => Cont.deepCopy_good c h
  | .table tb, h => Tbl.deepCopy_good tb h
  | .aot ts t n p, h => by
    unfold Item.deepCopy
    refine mkAoT_good ?_
    rw [← goodTables_iff]
    exact deepCopyTables_good ts h
  | .null t, _ => trivial
  | .ws .., h | .comment .., h | .integer .., h | .float .., h | .bool .., h | .datetime .., h | .date .., h
  | .time .., h | .str .., h => h
theorem deepCopyGroups_good : (gs : List AGroup) → goodGroups W gs → goodGroups W gs.deepCopyGroups
  | [], h => h
  | g :: r, h => ⟨AGroup.deepCopy_good g h.1, deepCopyGroups_good r h.2⟩
theorem AGroup.deepCopy_good : (g : AGroup) → g.Good W → g.deepCopy.Good W
  | .noval .., h => h
  | .val _ v _ _, h => Item.deepCopy_good v h
theorem Tbl.deepCopy_good : (t : Tbl) → t.Good W → t.deepCopy.Good W
  | .mk c t a s n d, h => Cont.deepCopy_good c h
theorem Cont.deepCopy_good : (c : Cont) → c.Good W → c.deepCopy.Good W
  | .mk b m d p tk, h => by
    have h : W (.mk b m d p tk) ∧ goodEntries W b := h
    exact ⟨hW.shape (hW.copy h.1) (deepCopyEntries_shape b), deepCopyEntries_good b h.2⟩
theorem deepCopyEntries_good : (b : List Entry) → goodEntries W b → goodEntries W b.deepCopyEntries
  | [], h => h
  | e :: r, h => ⟨Entry.deepCopy_good e h.1, deepCopyEntries_good r h.2⟩
theorem Entry.deepCopy_good : (e : Entry) → e.Good W → e.deepCopy.Good W
  | .mk _ v, h => Item.deepCopy_good v h
theorem deepCopyTables_good : (ts : List Tbl) → goodTables W ts → goodTables W ts.deepCopyTables
  | [], h => h
  | t :: r, h => ⟨Tbl.deepCopy_good t h.1, deepCopyTables_good r h.2⟩
end

end

theorem Item.isTable_stopParsing (v : Item) : v.stopParsing.isTable = v.isTable := by
  cases v <;> rfl

theorem stopParsingEntries_shape : (b : List Entry) → b.stopParsingEntries.map Entry.shape = b.map Entry.shape
  | [] => rfl
  | .mk k v :: r => by
    unfold List.stopParsingEntries
    rw [List.map_cons, List.map_cons, stopParsingEntries_shape r]
    unfold Entry.stopParsing
    simp [Item.isTable_stopParsing]

section
variable (hW : Closed W) (hS : ∀ {b m d p tk}, W (.mk b m d p tk) → W (.mk b m d false tk))
include hW hS
mutual
theorem Cont.stopParsing_good : (c : Cont) → c.Good W → c.stopParsing.Good W
  | .mk b m d p tk, h => by
    have h : W (.mk b m d p tk) ∧ goodEntries W b := h
    exact ⟨hW.shape (hS h.1) (stopParsingEntries_shape b), stopParsingEntries_good b h.2⟩
theorem stopParsingEntries_good : (b : List Entry) → goodEntries W b → goodEntries W b.stopParsingEntries
  | [], h => h
  | e :: r, h => ⟨Entry.stopParsing_good e h.1, stopParsingEntries_good r h.2⟩
theorem Entry.stopParsing_good : (e : Entry) → e.Good W → e.stopParsing.Good W
  | .mk _ v, h => Item.stopParsing_good v h
theorem Item.stopParsing_good : (v : Item) → v.Good W → v.stopParsing.Good W
  | .table tb, h => Tbl.stopParsing_good tb h
  | .aot ts t n p, h => stopParsingTables_good ts h
  | .ws .., h | .comment .., h | .integer .., h | .float .., h | .bool .., h | .datetime .., h | .date .., h
  | .time .., h | .str .., h | .array .., h | .inline .., h | .null .., h => h
theorem Tbl.stopParsing_good : (t : Tbl) → t.Good W → t.stopParsing.Good W
  | .mk c t a s n d, h => Cont.stopParsing_good c h
theorem stopParsingTables_good : (ts : List Tbl) → goodTables W ts → goodTables W ts.stopParsingTables
  | [], h => h
  | t :: r, h => ⟨Tbl.stopParsing_good t h.1, stopParsingTables_good r h.2⟩
end
end
end

theorem Cont.WF_copy {c : Cont} (hw : c.WF) : (Cont.mk c.body c.map (dictOfBody c.body) c.parsed c.tableKeys).WF := by
  have hidx := hw.idx
  rw [Cont.WF_mk]
  obtain ⟨h1, h2⟩ := dictOfBody_spec c.body
  refine ⟨hidx, h1, ?_, hw.multi⟩
  intro k
  rw [h2]
  have h3 := hidx.isSome k
  rw [shape_names] at h3
  exact h3.symm

theorem Cont.WF_one (k : SKey) (v : Item) (p : Bool) (tk : List Str) :
    (Cont.mk [.mk (some k) v] [(k.key, [0])] [k.key] p tk).WF := by
  have := (Cont.WF_empty true).rawAppend (key := some k) (item := v) (c' := _)
    (by intro k' hk his; simp [Cont.empty, mapGet] at his) rfl
  exact this.of_shape (b := [.mk (some k) v]) rfl _ _

/-- consistency is kept by all operations -/
theorem closed_WF : Closed Cont.WF where
  wf h := h
  shape h hb := h.of_shape hb _ _
  copy h := Cont.WF_copy h
  append1 h hr := h.append1 hr
  one k v := Cont.WF_one k v _ _
  empty := Cont.WF_empty true

end Tomlkit
