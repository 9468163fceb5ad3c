import Verif.Proofs.Keep
/-!
# Documents as the parser builds them, and the text of a deep copy
-/
namespace Tomlkit

/-! ### array groups -/

/-- text of a group under construction -/
def GroupSt.text (g : GroupSt) : Str :=
  optStr g.indent ++ ((match g.v with | some v => v.asString | none => []) ++ (optStr g.comma ++ optComment g.cmt))

/-- a comma only follows a value or white space, a comment does not follow a comment -/
def fits (comma cmt : Bool) : List Item → Prop
  | [] => True
  | .ws s _ :: r => if s.contains 44 then comma = false ∧ cmt = false ∧ fits true false r else fits false false r
  | .comment _ :: r => cmt = false ∧ fits comma true r
  | _ :: r => fits false false r

/-- what the last group has -/
def fitEnd (comma cmt : Bool) : List Item → Bool × Bool
  | [] => (comma, cmt)
  | .ws s _ :: r => if s.contains 44 then fitEnd true false r else fitEnd false false r
  | .comment _ :: r => fitEnd comma true r
  | _ :: r => fitEnd false false r

theorem fits_append (l : List Item) : ∀ (a b : Bool) (r : List Item), fits a b l →
    fits (fitEnd a b l).1 (fitEnd a b l).2 r → fits a b (l ++ r) := by
  induction l with
  | nil => intro a b r _ h; exact h
  | cons i l ih =>
    intro a b r h h'
    cases i with
    | ws s f =>
      simp only [List.cons_append, fits, fitEnd] at h h' ⊢
      by_cases hc : s.contains 44 = true
      · rw [if_pos hc] at h h' ⊢
        exact ⟨h.1, h.2.1, ih _ _ _ h.2.2 h'⟩
      · rw [if_neg hc] at h h' ⊢
        exact ih _ _ _ h h'
    | comment t =>
      simp only [List.cons_append, fits, fitEnd] at h h' ⊢
      exact ⟨h.1, ih _ _ _ h.2 h'⟩
    | _ =>
      simp only [List.cons_append, fits, fitEnd] at h h' ⊢
      exact ih _ _ _ h h'

theorem fitEnd_append (l : List Item) : ∀ (a b : Bool) (r : List Item),
    fitEnd a b (l ++ r) = fitEnd (fitEnd a b l).1 (fitEnd a b l).2 r := by
  induction l with
  | nil => intro a b r; rfl
  | cons i l ih =>
    intro a b r
    cases i with
    | ws s f =>
      simp only [List.cons_append, fitEnd]
      by_cases hc : s.contains 44 = true
      · rw [if_pos hc, if_pos hc]; exact ih _ _ _
      · rw [if_neg hc, if_neg hc]; exact ih _ _ _
    | comment t => exact ih _ _ _
    | _ => exact ih _ _ _

theorem groupsStr_append (a b : List AGroup) : groupsStr (a ++ b) = groupsStr a ++ groupsStr b := by
  induction a with
  | nil => rfl
  | cons g r ih => simp only [List.cons_append, groupsStr, ih, List.append_assoc]

theorem flushGroup_text (g : GroupSt) : groupsStr (flushGroup g) = g.text := by
  unfold flushGroup
  by_cases h : g.nonEmpty = true
  · rw [if_pos h]
    unfold GroupSt.toGroup GroupSt.text
    cases hv : g.v <;> simp [groupsStr, AGroup.asString]
  · rw [if_neg h]
    unfold GroupSt.nonEmpty at h
    simp at h
    simp [GroupSt.text, h, groupsStr, optStr, optComment]

theorem asString_ws (s : Str) (f : Bool) : (Item.ws s f).asString = s := rfl
theorem asString_comment (t : Trivia) : (Item.comment t).asString = commentText t := rfl
theorem asString_null : Item.nullItem.asString = [] := rfl

theorem getD_text (v : Option Item) : (v.getD Item.nullItem).asString = (match v with | some v => v.asString | none => []) := by
  cases v <;> rfl

/-- grouping keeps the text -/
theorem groupLoop_text (items : List Item) : ∀ g : GroupSt, fits g.comma.isSome g.cmt.isSome items →
    (g.v = none → g.comma = none ∧ g.cmt = none) →
    groupsStr (groupLoop g items) = g.text ++ items.flatMap Item.asString := by
  induction items with
  | nil => intro g _ _; simp [groupLoop, flushGroup_text]
  | cons it r ih =>
    intro g hf hg
    have hvalue : fits false false r → groupLoop g (it :: r) = (match g.v with
        | none => groupLoop { g with v := some it } r
        | some _ => flushGroup g ++ groupLoop { v := some it } r) →
        groupsStr (groupLoop g (it :: r)) = g.text ++ (it :: r).flatMap Item.asString := by
      intro hf he
      rw [he]
      rcases hv : g.v with _ | v
      · obtain ⟨h1, h2⟩ := hg hv
        simp only
        rw [ih _ (by simpa [h1, h2] using hf) (by simp)]
        simp [GroupSt.text, hv, h1, h2, optStr, optComment]
      · simp only
        rw [groupsStr_append, flushGroup_text, ih _ (by simpa using hf) (by simp)]
        simp [GroupSt.text, optStr, optComment]
    cases it with
    | ws s f =>
      simp only [fits] at hf
      rw [groupLoop]
      by_cases hc : s.contains 44 = true
      · rw [if_pos hc] at hf
        rw [if_neg (by simpa using hc)]
        obtain ⟨h1, h2, h3⟩ := hf
        have h1 : g.comma = none := by simpa using h1
        have h2 : g.cmt = none := by simpa using h2
        rw [ih _ (by simpa [h2] using h3) (by simp)]
        simp [GroupSt.text, h1, h2, optStr, optComment, getD_text, asString_ws]
      · rw [if_neg hc] at hf
        rw [if_pos (by simpa using hc), groupsStr_append, flushGroup_text, ih _ (by simpa using hf) (by simp)]
        simp [GroupSt.text, optStr, optComment, asString_ws]
    | comment t =>
      simp only [fits] at hf
      have h2 : g.cmt = none := by simpa using hf.1
      rw [groupLoop, ih _ (by simpa using hf.2) (by simp)]
      simp [GroupSt.text, h2, optStr, optComment, getD_text, asString_comment]
    | _ =>
      refine hvalue (by simpa only [fits] using hf) ?_
      rw [groupLoop]
      · rcases g.v with _ | v <;> rfl
      · intros; contradiction
      · intros; contradiction

/-! ### what the parser builds -/

/-- neither white space nor a comment -/
def Item.isValue : Item → Bool
  | .ws .. => false
  | .comment _ => false
  | _ => true

mutual
/-- an item as the parser builds it -/
def Item.Clean : Item → Prop
  | .array gs _ ml => (ml = false ∧ groupValues (groupItems gs) = gs) ∧ cleanGroups gs
  | .inline c _ new => new = false ∧ c.Clean
  | .table tb => tb.Clean
  | .aot ts t _ p => p = true ∧ t = { trail := [] } ∧ cleanTables ts
  | .null t => t = { trail := [] }
  | _ => True
termination_by structural i => i
@[inherit_doc Item.Clean]
def cleanGroups : List AGroup → Prop
  | [] => True
  | g :: r => g.Clean ∧ cleanGroups r
termination_by structural g => g
@[inherit_doc Item.Clean]
def AGroup.Clean : AGroup → Prop
  | .noval i c m => (∃ s, i = some s ∧ s.contains 44 = false) ∧ c = none ∧ m = none
  | .val i v c _ => v.Clean ∧ v.isValue = true ∧ (∀ s, i = some s → s.contains 44 = false) ∧
      (∀ s, c = some s → s.contains 44 = true)
termination_by structural g => g
@[inherit_doc Item.Clean]
def Tbl.Clean : Tbl → Prop
  | .mk c t _ s _ _ => c.Clean ∧ ((s = some false ∧ (hasNl t.trail = true ∨ c.body = [] ∧ c.dict = [])) ∨ s = some true)
termination_by structural t => t
@[inherit_doc Item.Clean]
def Cont.Clean : Cont → Prop
  | .mk b _ _ p _ => p = true ∧ cleanEntries b
termination_by structural c => c
@[inherit_doc Item.Clean]
def cleanEntries : List Entry → Prop
  | [] => True
  | e :: r => e.Clean ∧ cleanEntries r
termination_by structural e => e
/-- a table that only holds other tables has no header -/
def Entry.Clean : Entry → Prop
  | .mk key v => v.Clean ∧ (key.isSome = true → (v.isNull || v.isWhitespace) = false) ∧ ∀ tb, v = .table tb → tb.superFlag = some true →
      tb.display = none ∧ tb.trivia.indent ≠ [10] ∧ tb.cont.body ≠ [] ∧ (isDottedKey key = false → ∀ e ∈ tb.cont.body, e.v.isPlain = false)
termination_by structural e => e
@[inherit_doc Item.Clean]
def cleanTables : List Tbl → Prop
  | [] => True
  | t :: r => t.Clean ∧ cleanTables r
termination_by structural t => t
end

theorem cleanGroups_iff (gs : List AGroup) : cleanGroups gs ↔ ∀ g ∈ gs, g.Clean := by
  induction gs with
  | nil => simp [cleanGroups]
  | cons g r ih => simp [cleanGroups, ih]
theorem cleanEntries_iff (es : List Entry) : cleanEntries es ↔ ∀ e ∈ es, e.Clean := by
  induction es with
  | nil => simp [cleanEntries]
  | cons g r ih => simp [cleanEntries, ih]
theorem cleanTables_iff (ts : List Tbl) : cleanTables ts ↔ ∀ t ∈ ts, t.Clean := by
  induction ts with
  | nil => simp [cleanTables]
  | cons g r ih => simp [cleanTables, ih]
theorem Cont.clean_iff (c : Cont) : c.Clean ↔ c.parsed = true ∧ ∀ e ∈ c.body, e.Clean := by
  cases c; rw [← cleanEntries_iff]; rfl
theorem Tbl.clean_iff (t : Tbl) : t.Clean ↔ t.cont.Clean ∧
    ((t.superFlag = some false ∧ (hasNl t.trivia.trail = true ∨ t.cont.body = [] ∧ t.cont.dict = [])) ∨
      t.superFlag = some true) := by cases t; rfl

/-- grouping clean items gives clean groups -/
theorem groupLoop_clean (items : List Item) : ∀ g : GroupSt, (∀ i ∈ items, i.Clean) →
    (g.v = none → g.comma = none ∧ g.cmt = none) → (∀ v, g.v = some v → v.Clean ∧ v.isValue = true) →
    (∀ s, g.indent = some s → s.contains 44 = false) → (∀ s, g.comma = some s → s.contains 44 = true) →
    cleanGroups (groupLoop g items) := by
  have hflush : ∀ g : GroupSt, (g.v = none → g.comma = none ∧ g.cmt = none) → (∀ v, g.v = some v → v.Clean ∧ v.isValue = true) →
      (∀ s, g.indent = some s → s.contains 44 = false) → (∀ s, g.comma = some s → s.contains 44 = true) →
      cleanGroups (flushGroup g) := by
    intro g h1 h2 h3 h4
    unfold flushGroup
    by_cases h : g.nonEmpty = true
    · rw [if_pos h]
      refine ⟨?_, trivial⟩
      unfold GroupSt.toGroup
      rcases hv : g.v with _ | v
      · obtain ⟨hc, hm⟩ := h1 hv
        simp [GroupSt.nonEmpty, hv, hc, hm] at h
        obtain ⟨s, hs⟩ := Option.isSome_iff_exists.1 h
        exact ⟨⟨s, hs, h3 s hs⟩, hc, hm⟩
      · exact ⟨(h2 v hv).1, (h2 v hv).2, h3, h4⟩
    · rw [if_neg h]; trivial
  have happ : ∀ a b : List AGroup, cleanGroups a → cleanGroups b → cleanGroups (a ++ b) := by
    intro a b ha hb
    rw [cleanGroups_iff] at *
    intro g hg
    rcases List.mem_append.1 hg with h | h
    · exact ha g h
    · exact hb g h
  have hnull : Item.nullItem.Clean ∧ Item.nullItem.isValue = true := ⟨rfl, rfl⟩
  have hgetD : ∀ (o : Option Item), (∀ v, o = some v → v.Clean ∧ v.isValue = true) →
      ∀ v, some (o.getD Item.nullItem) = some v → v.Clean ∧ v.isValue = true := by
    intro o ho v hv
    cases o with
    | none => cases hv; exact hnull
    | some w => cases hv; exact ho w rfl
  induction items with
  | nil => intro g _ h1 h2 h3 h4; exact hflush g h1 h2 h3 h4
  | cons it r ih =>
    intro g hi h1 h2 h3 h4
    have hr : ∀ i ∈ r, i.Clean := fun i h => hi i (List.mem_cons_of_mem _ h)
    have hvalue : it.isValue = true → groupLoop g (it :: r) = (match g.v with
        | none => groupLoop { g with v := some it } r
        | some _ => flushGroup g ++ groupLoop { v := some it } r) → cleanGroups (groupLoop g (it :: r)) := by
      intro hval he
      have hit := hi it (List.mem_cons_self ..)
      rw [he]
      rcases hv : g.v with _ | v
      · exact ih _ hr (by simp) (by intro v hv; cases hv; exact ⟨hit, hval⟩) h3 h4
      · refine happ _ _ (hflush g h1 h2 h3 h4) (ih _ hr (by simp) (by intro v hv; cases hv; exact ⟨hit, hval⟩) ?_ ?_) <;>
          intro s hs <;> cases hs
    cases it with
    | ws s f =>
      rw [groupLoop]
      by_cases hc : s.contains 44 = true
      · rw [if_neg (by simpa using hc)]
        refine ih _ hr (by simp) (hgetD _ h2) h3 ?_
        intro s' hs; cases hs; exact hc
      · rw [if_pos (by simpa using hc)]
        refine happ _ _ (hflush g h1 h2 h3 h4) (ih _ hr (by simp) (by intro v hv; cases hv) ?_ (by intro s hs; cases hs))
        intro s' hs; cases hs; simpa using hc
    | comment t =>
      rw [groupLoop]
      exact ih _ hr (by simp) (hgetD _ h2) h3 h4
    | _ =>
      refine hvalue rfl ?_
      rw [groupLoop]
      · rcases g.v with _ | v <;> rfl
      · intros; contradiction
      · intros; contradiction

theorem groupValues_clean {items : List Item} (h : ∀ i ∈ items, i.Clean) : cleanGroups (groupValues items) :=
  groupLoop_clean items {} h (by simp) (by intro v hv; cases hv) (by intro s hs; cases hs) (by intro s hs; cases hs)

theorem groupValues_text {items : List Item} (h : fits false false items) :
    groupsStr (groupValues items) = items.flatMap Item.asString := by
  unfold groupValues
  rw [groupLoop_text items {} h (by simp)]
  rfl

/-! ### regrouping -/

theorem fits_value (v : Item) (hv : v.isValue = true) (a b : Bool) (r : List Item) : fits a b (v :: r) = fits false false r := by
  cases v <;> first | rfl | cases hv

theorem fits_groupItems (gs : List AGroup) (h : cleanGroups gs) : ∀ a b : Bool, fits a b (groupItems gs) := by
  induction gs with
  | nil => intro a b; trivial
  | cons g r ih =>
    intro a b
    have hr := ih h.2
    have hg := h.1
    unfold groupItems
    rw [List.flatMap_cons]
    cases g with
    | noval i c m =>
      obtain ⟨⟨s, rfl, hs⟩, rfl, rfl⟩ := hg
      simp only [AGroup.items, Option.map_some, Option.toList_some, Option.map_none, Option.toList_none, List.append_nil,
        List.cons_append, List.nil_append, fits, hs, Bool.false_eq_true, if_false]
      exact hr false false
    | val i v c m =>
      obtain ⟨_, hv, hi, hc⟩ := hg
      have hmid : ∀ a b, fits a b (v :: ((c.map fun s => Item.ws s false).toList ++ (m.map Item.comment).toList ++
          List.flatMap AGroup.items r)) := by
        intro a b
        rw [fits_value v hv]
        rcases c with _ | s <;> rcases m with _ | t
        · exact hr false false
        · exact ⟨rfl, hr false true⟩
        · have := hc s rfl
          simp only [Option.map_some, Option.toList_some, Option.map_none, Option.toList_none, List.append_nil,
            List.cons_append, List.nil_append, fits, this, if_true]
          exact ⟨trivial, trivial, hr true false⟩
        · have := hc s rfl
          simp only [Option.map_some, Option.toList_some, 
            List.cons_append, List.nil_append, fits, this, if_true]
          exact ⟨trivial, trivial, trivial, hr true true⟩
      rcases i with _ | s
      · simpa [AGroup.items] using hmid a b
      · have := hi s rfl
        have := hmid false false
        simp only [AGroup.items, Option.map_some, Option.toList_some, List.cons_append, List.nil_append, fits,
          hi s rfl, Bool.false_eq_true, if_false, List.append_assoc] at this ⊢
        simpa using this

theorem groupItems_text (gs : List AGroup) : (groupItems gs).flatMap Item.asString = groupsStr gs := by
  induction gs with
  | nil => rfl
  | cons g r ih =>
    unfold groupItems at *
    rw [List.flatMap_cons, List.flatMap_append, ih, groupsStr]
    congr 1
    cases g with
    | noval i c m =>
      cases i <;> cases c <;> cases m <;>
        simp [AGroup.items, AGroup.asString, optStr, optComment, asString_ws, asString_comment]
    | val i v c m =>
      cases i <;> cases c <;> cases m <;>
        simp [AGroup.items, AGroup.asString, optStr, optComment, asString_ws, asString_comment]

/-! ### copies -/

theorem Item.deepCopy_kind (v : Item) : v.deepCopy.isTable = v.isTable ∧ v.deepCopy.isAoT = v.isAoT ∧
    v.deepCopy.isWhitespace = v.isWhitespace ∧ v.deepCopy.isNull = v.isNull ∧ v.deepCopy.isValue = v.isValue ∧
    v.deepCopy.isPlain = v.isPlain ∧ v.deepCopy.isBool = v.isBool := by
  cases v <;> exact ⟨rfl, rfl, rfl, rfl, rfl, rfl, rfl⟩

theorem aotAppend_parsed (t : Trivia) (h : spaceRun t.indent = none) (ts : List Tbl) (v : Tbl) :
    aotAppend t true ts v = ts ++ [v] := by
  unfold aotAppend aotInsert
  have : clampIndex (ts.length : Int) ts.length = ts.length := by
    unfold clampIndex
    have h0 : ¬ ((ts.length : Int) < 0) := by omega
    simp only [if_neg h0]
    simp
  rw [this, h]
  simp [List.insertIdx_length_self]

theorem mkAoT_parsed (ts : List Tbl) (n : Option Str) : mkAoT ts n true = .aot ts { trail := [] } n true := by
  unfold mkAoT
  have : ∀ (l acc : List Tbl), l.foldl (aotAppend { trail := [] } true) acc = acc ++ l := by
    intro l
    induction l with
    | nil => intro acc; simp
    | cons a r ih =>
      intro acc
      rw [List.foldl_cons, aotAppend_parsed _ (by decide), ih]; simp
  rw [this]; rfl

theorem deepCopyEntries_eq (b : List Entry) : b.deepCopyEntries = b.map Entry.deepCopy := by
  induction b with
  | nil => rfl
  | cons e r ih =>
    rw [List.map_cons, ← ih]; rfl

theorem deepCopy_lastKey (b : List Entry) : lastKeyIdx (b.map Entry.deepCopy) = lastKeyIdx b := by
  unfold lastKeyIdx
  rw [List.zipIdx_map, ← List.map_reverse, List.find?_map]
  rw [Option.map_map]
  have : ((fun p : Entry × Nat => p.1.key.isSome) ∘ Prod.map Entry.deepCopy id) = fun p => p.1.key.isSome := by
    funext p
    rcases p with ⟨⟨k, v⟩, i⟩
    rfl
  rw [this]
  congr 1

theorem Tbl.deepCopy_fields (t : Tbl) : t.deepCopy = .mk t.cont.deepCopy t.trivia t.isAot t.superFlag t.name t.display := by
  cases t; rfl

theorem body_any_deepCopy (b : List Entry) : (b.map Entry.deepCopy).any (fun e => e.v.isPlain) = b.any fun e => e.v.isPlain := by
  rw [List.any_map]
  congr 1
  funext e
  rcases e with ⟨k, v⟩
  exact (Item.deepCopy_kind v).2.2.2.2.2.1

theorem Cont.deepCopy_body (c : Cont) : c.deepCopy.body = c.body.map Entry.deepCopy := by
  cases c; exact deepCopyEntries_eq _

theorem dictOfBody_nil : dictOfBody [] = [] := rfl

theorem showsHeader_super {key : SKey} {tb : Tbl} (hs : tb.superFlag = some true)
    (h : isDottedKey (some key) = false → ∀ e ∈ tb.cont.body, e.v.isPlain = false) : showsHeader key tb = false := by
  unfold showsHeader
  have : tb.isSuper = true := by unfold Tbl.isSuper; rw [hs]
  rw [this]
  rcases hd : key.dotted
  · have : tb.cont.body.any (fun e => e.v.isPlain) = false := by
      rw [List.any_eq_false]
      intro e he
      rw [h hd e he]; decide
    rw [this]; rfl
  · simp

theorem tableHeader_deepCopy (key : SKey) (pfx : Option Str) (tb : Tbl) (h : (Entry.mk (some key) (.table tb)).Clean) :
    tableHeader key pfx tb.deepCopy = tableHeader key pfx tb := by
  obtain ⟨hc, _, hsup⟩ := h
  replace hc : tb.Clean := hc
  rw [Tbl.clean_iff] at hc
  obtain ⟨_, ⟨hs, hd⟩ | hs⟩ := hc
  · have h1 : tb.isSuper = false := by unfold Tbl.isSuper; rw [hs]
    have h2 : tb.deepCopy.isSuper = false := by unfold Tbl.isSuper; rw [Tbl.deepCopy_fields, Tbl.superFlag_mk, hs]
    unfold tableHeader showsHeader
    rw [h1, h2]
    simp only [Bool.not_false, Bool.true_or, if_true]
    rw [Tbl.deepCopy_fields]
    simp only [Tbl.trivia_mk, Tbl.isAot_mk, Tbl.cont_mk, tableKeyText, Tbl.display_mk]
    rcases hd with hd | ⟨hb, hd⟩
    · simp [hd]
    · have : tb.cont.deepCopy.dict = [] := by
        rcases hcc : tb.cont with ⟨b, m, d, p, tk⟩
        rw [hcc] at hb
        simp only [Cont.body_mk] at hb
        subst hb; rfl
      simp [this, hd]
  · obtain ⟨_, _, _, hpl⟩ := hsup tb rfl hs
    have h2 : showsHeader key tb.deepCopy = false := by
      refine showsHeader_super (by rw [Tbl.deepCopy_fields]; exact hs) ?_
      intro hd e he
      rw [Tbl.deepCopy_fields, Tbl.cont_mk, Cont.deepCopy_body] at he
      obtain ⟨e', he', rfl⟩ := List.mem_map.1 he
      rcases e' with ⟨k, v⟩
      exact (Item.deepCopy_kind v).2.2.2.2.2.1.trans (hpl hd _ he')
    unfold tableHeader
    rw [h2, showsHeader_super hs hpl]
    rw [Tbl.deepCopy_fields]; rfl

theorem isSuper_deepCopy (tb : Tbl) (h : tb.Clean) : tb.deepCopy.isSuper = tb.isSuper := by
  rw [Tbl.clean_iff] at h
  unfold Tbl.isSuper
  rw [Tbl.deepCopy_fields, Tbl.superFlag_mk]
  obtain ⟨_, ⟨hs, _⟩ | hs⟩ := h <;> rw [hs]

/-! ### grouping is stable -/

/-- the group begins with white space -/
def AGroup.indented : AGroup → Bool
  | .noval i _ _ => i.isSome
  | .val i _ _ _ => i.isSome

/-- in the order of the groups: white space alone is followed by a group that begins with white space -/
def Chain : List AGroup → Prop
  | [] => True
  | .noval .. :: r => (∀ x, r.head? = some x → x.indented = true) ∧ Chain r
  | .val .. :: r => Chain r

/-- the parts of a group are what they should be -/
def AGroup.Shaped : AGroup → Prop
  | .noval i c m => (∃ s, i = some s ∧ s.contains 44 = false) ∧ c = none ∧ m = none
  | .val i v c _ => v.isValue = true ∧ (∀ s, i = some s → s.contains 44 = false) ∧ (∀ s, c = some s → s.contains 44 = true)

/-- the state of a group under construction is what it should be -/
structure GroupSt.Ok (g : GroupSt) : Prop where
  empty : g.v = none → g.comma = none ∧ g.cmt = none
  value : ∀ v, g.v = some v → v.isValue = true
  indent : ∀ s, g.indent = some s → s.contains 44 = false
  comma : ∀ s, g.comma = some s → s.contains 44 = true

theorem groupLoop_value {it : Item} (h : it.isValue = true) (g : GroupSt) (r : List Item) :
    groupLoop g (it :: r) = (match g.v with
      | none => groupLoop { g with v := some it } r
      | some _ => flushGroup g ++ groupLoop { v := some it } r) := by
  cases it with
  | ws s f => cases h
  | comment t => cases h
  | _ =>
    rw [groupLoop]
    · rcases g.v with _ | v <;> rfl
    · intros; contradiction
    · intros; contradiction

theorem flushGroup_ok {g : GroupSt} (h : g.Ok) : (flushGroup g = [] ∧ g = {}) ∨
    (∃ s, g = { indent := some s } ∧ flushGroup g = [.noval (some s) none none] ∧ s.contains 44 = false) ∨
    (∃ v, g.v = some v ∧ flushGroup g = [.val g.indent v g.comma g.cmt] ∧ v.isValue = true) := by
  rcases g with ⟨i, v, c, m⟩
  rcases v with _ | v
  · obtain ⟨h1, h2⟩ := h.empty rfl
    simp only at h1 h2
    subst h1; subst h2
    rcases i with _ | s
    · exact Or.inl ⟨rfl, rfl⟩
    · exact Or.inr (Or.inl ⟨s, rfl, rfl, h.indent s rfl⟩)
  · refine Or.inr (Or.inr ⟨v, rfl, ?_, h.value v rfl⟩)
    simp [flushGroup, GroupSt.nonEmpty, GroupSt.toGroup]

theorem chain_flush {g : GroupSt} (h : g.Ok) {r : List AGroup} (hr : Chain r)
    (hx : g.v = none → ∀ x, r.head? = some x → x.indented = true) : Chain (flushGroup g ++ r) := by
  rcases flushGroup_ok h with ⟨e, _⟩ | ⟨s, e0, e, _⟩ | ⟨v, _, e, _⟩ <;> rw [e]
  · exact hr
  · exact ⟨hx (by rw [e0]), hr⟩
  · exact hr

theorem shaped_flush {g : GroupSt} (h : g.Ok) : ∀ x ∈ flushGroup g, x.Shaped := by
  rcases flushGroup_ok h with ⟨e, _⟩ | ⟨s, _, e, hs⟩ | ⟨v, hv, e, hvv⟩ <;> rw [e] <;> intro x hx
  · cases hx
  · cases List.mem_singleton.1 hx
    exact ⟨⟨s, rfl, hs⟩, rfl, rfl⟩
  · cases List.mem_singleton.1 hx
    exact ⟨hvv, h.indent, h.comma⟩

theorem head_flush {g : GroupSt} (h : g.Ok) (hi : g.indent.isSome = true) {r : List AGroup} :
    ∀ x, (flushGroup g ++ r).head? = some x → x.indented = true := by
  intro x hx
  rcases flushGroup_ok h with ⟨_, e⟩ | ⟨s, _, e, _⟩ | ⟨v, _, e, _⟩
  · subst e; cases hi
  · rw [e] at hx; cases hx; rfl
  · rw [e] at hx; cases hx; exact hi

theorem groupLoop_chain (items : List Item) : ∀ g : GroupSt, g.Ok → Chain (groupLoop g items) ∧
    (∀ x ∈ groupLoop g items, x.Shaped) ∧
    (g.indent.isSome = true → ∀ x, (groupLoop g items).head? = some x → x.indented = true) := by
  have hgetD : ∀ {o : Option Item}, (∀ v, o = some v → v.isValue = true) →
      ∀ v, some (o.getD Item.nullItem) = some v → v.isValue = true := by
    intro o ho v hv
    cases o with
    | none => cases hv; rfl
    | some w => cases hv; exact ho w rfl
  induction items with
  | nil =>
    intro g hg
    have h1 : groupLoop g [] = flushGroup g ++ [] := by rw [List.append_nil]; rfl
    refine ⟨?_, shaped_flush hg, fun hi => ?_⟩
    · rw [h1]; exact chain_flush hg trivial (by intro _ x hx; cases hx)
    · rw [h1]; exact head_flush hg hi
  | cons it r ih =>
    intro g hg
    by_cases hv : it.isValue = true
    · rw [groupLoop_value hv]
      rcases hgv : g.v with _ | v
      · exact ih { g with v := some it } ⟨(by intro h; cases h), (by intro v h; cases h; exact hv), hg.indent, hg.comma⟩
      · obtain ⟨h1, h2, h3⟩ := ih { v := some it } ⟨(by intro h; cases h), (by intro v h; cases h; exact hv),
          (by intro s h; cases h), (by intro s h; cases h)⟩
        refine ⟨chain_flush hg h1 (by rw [hgv]; intro h; cases h), ?_, fun hi => head_flush hg hi⟩
        intro x hx
        rcases List.mem_append.1 hx with hx | hx
        · exact shaped_flush hg x hx
        · exact h2 x hx
    · cases it with
      | ws s f =>
        rw [groupLoop]
        by_cases hc : s.contains 44 = true
        · rw [if_neg (by simpa using hc)]
          exact ih { g with v := some (g.v.getD Item.nullItem), comma := some s }
            ⟨(by intro h; cases h), hgetD hg.value, hg.indent, (by intro s' h; cases h; exact hc)⟩
        · rw [if_pos (by simpa using hc)]
          obtain ⟨h1, h2, h3⟩ := ih { indent := some s } ⟨(by intro _; exact ⟨rfl, rfl⟩), (by intro v h; cases h),
            (by intro s' h; cases h; simpa using hc), (by intro s h; cases h)⟩
          refine ⟨chain_flush hg h1 (fun _ => h3 rfl), ?_, fun hi => head_flush hg hi⟩
          intro x hx
          rcases List.mem_append.1 hx with hx | hx
          · exact shaped_flush hg x hx
          · exact h2 x hx
      | comment t =>
        rw [groupLoop]
        exact ih { g with v := some (g.v.getD Item.nullItem), cmt := some t }
            ⟨(by intro h; cases h), hgetD hg.value, hg.indent, hg.comma⟩
      | _ => exact absurd rfl hv

theorem regroup_chain : ∀ (gs : List AGroup), Chain gs → (∀ x ∈ gs, x.Shaped) → ∀ g : GroupSt, g.Ok →
    (g = {} ∨ g.v.isSome = true ∨ ∀ x, gs.head? = some x → x.indented = true) →
    groupLoop g (groupItems gs) = flushGroup g ++ gs
  | [], _, _, g, _, _ => by rw [List.append_nil]; rfl
  | .noval i c m :: r, hc, hs, g, hg, h => by
    obtain ⟨⟨s, rfl, hs0⟩, rfl, rfl⟩ := hs _ (List.mem_cons_self ..)
    have hr := regroup_chain r hc.2 (fun x hx => hs x (List.mem_cons_of_mem _ hx)) { indent := some s }
      ⟨(by intro _; exact ⟨rfl, rfl⟩), (by intro v h; cases h), (by intro s' h; cases h; exact hs0), (by intro s h; cases h)⟩
      (Or.inr (Or.inr hc.1))
    show groupLoop g (.ws s false :: groupItems r) = _
    rw [groupLoop, if_pos (by rw [hs0]; rfl), hr]
    rfl
  | .val i v c m :: r, hc, hs, g, hg, h => by
    obtain ⟨hv, hi, hcm⟩ := hs _ (List.mem_cons_self ..)
    have hok : ∀ i, (∀ s, i = some s → s.contains 44 = false) → (GroupSt.mk i (some v) c m).Ok := fun i hi =>
      ⟨(by intro h; cases h), (by intro w h; cases h; exact hv), hi, hcm⟩
    have hr := fun i hi => regroup_chain r hc (fun x hx => hs x (List.mem_cons_of_mem _ hx)) (GroupSt.mk i (some v) c m) (hok i hi)
      (Or.inr (Or.inl rfl))
    have hfl : ∀ i, flushGroup (GroupSt.mk i (some v) c m) = [.val i v c m] := by
      intro i; simp [flushGroup, GroupSt.nonEmpty, GroupSt.toGroup]
    have hrest : ∀ i (hi : ∀ s, i = some s → s.contains 44 = false), groupLoop { indent := i, v := some v }
        ((c.map fun s => Item.ws s false).toList ++ (m.map Item.comment).toList ++ groupItems r) = .val i v c m :: r := by
      intro i hi
      have h0 := hr i hi
      rw [hfl] at h0
      refine Eq.trans ?_ h0
      rcases c with _ | s <;> rcases m with _ | t
      · rfl
      · show groupLoop _ (.comment t :: groupItems r) = _
        rw [groupLoop]; rfl
      · show groupLoop _ (.ws s false :: groupItems r) = _
        rw [groupLoop, if_neg (by rw [hcm s rfl]; decide)]; rfl
      · show groupLoop _ (.ws s false :: .comment t :: groupItems r) = _
        rw [groupLoop, if_neg (by rw [hcm s rfl]; decide), groupLoop]; rfl
    rcases i with _ | s
    · have e : groupItems (.val none v c m :: r) =
          v :: ((c.map fun s => Item.ws s false).toList ++ (m.map Item.comment).toList ++ groupItems r) := by
        simp [groupItems, AGroup.items]
      rw [e, groupLoop_value hv]
      rcases h with h | h | h
      · subst h
        exact hrest none hi
      · obtain ⟨w, hw⟩ := Option.isSome_iff_exists.1 h
        rw [hw]
        show flushGroup g ++ _ = _
        rw [hrest none hi]
      · exact absurd (h _ rfl) (by intro h; cases h)
    · have e : groupItems (.val (some s) v c m :: r) =
          .ws s false :: v :: ((c.map fun s => Item.ws s false).toList ++ (m.map Item.comment).toList ++ groupItems r) := by
        simp [groupItems, AGroup.items]
      rw [e, groupLoop, if_pos (by rw [hi s rfl]; rfl), groupLoop_value hv]
      show flushGroup g ++ groupLoop { indent := some s, v := some v } _ = _
      rw [hrest (some s) hi]

/-- grouping the items of groups again gives the groups -/
theorem regroup (items : List Item) : groupValues (groupItems (groupValues items)) = groupValues items := by
  have hok : GroupSt.Ok {} := ⟨(by intro _; exact ⟨rfl, rfl⟩), (by intro v h; cases h), (by intro s h; cases h), (by intro s h; cases h)⟩
  obtain ⟨h1, h2, _⟩ := groupLoop_chain items {} hok
  exact regroup_chain _ h1 h2 {} hok (Or.inl rfl)

mutual
/-- a deep copy has the same text -/
theorem Item.deepCopy_text : (v : Item) → v.Clean → v.deepCopy.asString = v.asString ∧ v.deepCopy.Clean
  | .array gs t ml, h => by
    obtain ⟨⟨rfl, _⟩, hg⟩ := h
    obtain ⟨h1, h2⟩ := deepCopyGroups_text gs hg
    have h3 : ∀ i ∈ groupItems gs.deepCopyGroups, i.Clean := by
      intro i hi
      rw [cleanGroups_iff] at h2
      unfold groupItems at hi
      obtain ⟨g, hg, hi⟩ := List.mem_flatMap.1 hi
      have := h2 g hg
      cases g with
      | noval i' c m =>
        obtain ⟨⟨s, rfl, hs⟩, rfl, rfl⟩ := this
        simp [AGroup.items] at hi
        subst hi; trivial
      | val i' v c m =>
        simp only [AGroup.items, List.mem_append, Option.mem_toList, Option.map_eq_some_iff, List.mem_singleton] at hi
        rcases hi with ((⟨_, _, rfl⟩ | rfl) | ⟨_, _, rfl⟩) | ⟨_, _, rfl⟩
        · trivial
        · exact this.1
        · trivial
        · trivial
    refine ⟨?_, ⟨rfl, regroup _⟩, groupValues_clean h3⟩
    show 91 :: (groupsStr (groupValues (groupItems gs.deepCopyGroups)) ++ [93]) = 91 :: (groupsStr gs ++ [93])
    rw [groupValues_text (fits_groupItems _ h2 false false), groupItems_text, h1]
  | .inline c t new, h => by
    obtain ⟨rfl, hc⟩ := h
    obtain ⟨h1, h2, h3⟩ := Cont.deepCopy_text c hc
    exact ⟨h2, rfl, h3⟩
  | .table tb, h => by
    obtain ⟨h1, h2, h3⟩ := Tbl.deepCopy_text tb h
    exact ⟨h1, h3⟩
  | .aot ts t n p, h => by
    obtain ⟨rfl, rfl, ht⟩ := h
    obtain ⟨h1, h2, h3⟩ := deepCopyTables_text ts ht
    unfold Item.deepCopy
    rw [mkAoT_parsed]
    exact ⟨h1, rfl, rfl, h3⟩
  | .null _, _ => ⟨rfl, rfl⟩
  | .ws _ _, _ => ⟨rfl, trivial⟩
  | .comment _, _ => ⟨rfl, trivial⟩
  | .integer _ _ _, _ => ⟨rfl, trivial⟩
  | .float _ _ _, _ => ⟨rfl, trivial⟩
  | .bool _ _, _ => ⟨rfl, trivial⟩
  | .datetime _ _ _, _ => ⟨rfl, trivial⟩
  | .date _ _ _, _ => ⟨rfl, trivial⟩
  | .time _ _ _, _ => ⟨rfl, trivial⟩
  | .str _ _ _ _, _ => ⟨rfl, trivial⟩
theorem deepCopyGroups_text : (gs : List AGroup) → cleanGroups gs → groupsStr gs.deepCopyGroups = groupsStr gs ∧
    cleanGroups gs.deepCopyGroups
  | [], _ => ⟨rfl, trivial⟩
  | g :: r, h => by
    obtain ⟨h1, h2⟩ := AGroup.deepCopy_text g h.1
    obtain ⟨h3, h4⟩ := deepCopyGroups_text r h.2
    refine ⟨?_, h2, h4⟩
    show g.deepCopy.asString ++ groupsStr r.deepCopyGroups = _
    rw [h1, h3]; rfl
theorem AGroup.deepCopy_text : (g : AGroup) → g.Clean → g.deepCopy.asString = g.asString ∧ g.deepCopy.Clean
  | .noval _ _ _, h => ⟨rfl, h⟩
  | .val i v c m, h => by
    obtain ⟨h1, h2⟩ := Item.deepCopy_text v h.1
    refine ⟨?_, h2, (Item.deepCopy_kind v).2.2.2.2.1.trans h.2.1, h.2.2⟩
    show optStr i ++ (v.deepCopy.asString ++ _) = _
    rw [h1]; rfl
theorem Tbl.deepCopy_text : (t : Tbl) → t.Clean → t.deepCopy.asString = t.asString ∧
    (∀ key, t.deepCopy.renderAotElem key = t.renderAotElem key) ∧ t.deepCopy.Clean
  | .mk c t a s n d, h => by
    obtain ⟨h1, h2, h3⟩ := Cont.deepCopy_text c h.1
    obtain ⟨h4, h5⟩ := h1
    refine ⟨h4, ?_, h3, ?_⟩
    · intro key
      show aotHeader key t ++ c.deepCopy.renderBody false true key = aotHeader key t ++ c.renderBody false true key
      rw [h5]
    · rcases h.2 with ⟨hs, hd | ⟨hb, hd⟩⟩ | hs
      · exact Or.inl ⟨hs, Or.inl hd⟩
      · refine Or.inl ⟨hs, Or.inr ⟨?_, ?_⟩⟩
        · rw [Cont.deepCopy_body, hb]; rfl
        · rcases c with ⟨b, m, d, p, tk⟩
          simp only [Cont.body_mk] at hb
          subst hb; rfl
      · exact Or.inr hs
theorem Cont.deepCopy_text : (c : Cont) → c.Clean →
    (c.deepCopy.asString = c.asString ∧ ∀ kd ia key, c.deepCopy.renderBody kd ia key = c.renderBody kd ia key) ∧
    c.deepCopy.inlineString false = c.inlineString false ∧ c.deepCopy.Clean
  | .mk b m d p tk, h => by
    obtain ⟨h1, h2, h3, h4⟩ := deepCopyEntries_text b h.2
    refine ⟨⟨h1, h2⟩, ?_, h.1, h4⟩
    show inlineLoop false (lastKeyIdx b.deepCopyEntries) b.deepCopyEntries.length 0 [123] b.deepCopyEntries ++ [125] =
      inlineLoop false (lastKeyIdx b) b.length 0 [123] b ++ [125]
    rw [h3]
    rw [deepCopyEntries_eq, deepCopy_lastKey, List.length_map]
theorem deepCopyEntries_text : (b : List Entry) → cleanEntries b →
    bodyStr b.deepCopyEntries = bodyStr b ∧
    (∀ kd ia key, tableBodyStr kd ia key b.deepCopyEntries = tableBodyStr kd ia key b) ∧
    (∀ last len i buf, inlineLoop false last len i buf b.deepCopyEntries = inlineLoop false last len i buf b) ∧
    cleanEntries b.deepCopyEntries
  | [], _ => ⟨rfl, fun _ _ _ => rfl, fun _ _ _ _ => rfl, trivial⟩
  | e :: r, h => by
    obtain ⟨h1, h2, h3, h4⟩ := deepCopyEntries_text r h.2
    obtain ⟨g1, g2, g3⟩ := Entry.deepCopy_text e h.1
    refine ⟨?_, ?_, ?_, g3, h4⟩
    · show e.deepCopy.render none none ++ bodyStr r.deepCopyEntries = _
      rw [h1, g1]; rfl
    · intro kd ia key
      show _ ++ tableBodyStr kd ia key r.deepCopyEntries = _
      rw [h2, tableBodyStr]
      congr 1
      rw [g1]
      congr 1
      rcases e with ⟨k, v⟩
      cases v with
      | table tb =>
        have := isSuper_deepCopy tb h.1.1
        show (if (tb.deepCopy.isSuper && isDottedKey k && (ia || !kd)) = true then none else some key) =
          (if (tb.isSuper && isDottedKey k && (ia || !kd)) = true then none else some key)
        rw [this]
      | _ => rfl
    · intro last len i buf
      rcases e with ⟨k, v⟩
      cases k with
      | none =>
        show inlineLoop false last len (i + 1) (_ ++ (Entry.mk none v).deepCopy.inlinePiece) r.deepCopyEntries = _
        rw [h3, g2]; rfl
      | some k =>
        show inlineLoop false last len (i + 1) _ r.deepCopyEntries = _
        rw [h3, inlineLoop]
        show inlineLoop false last len (i + 1) (match last with
          | some l => if i < l then (buf ++ (Entry.mk (some k) v).deepCopy.inlinePiece) ++ _ else _
          | none => _) r = _
        rw [g2]; rfl
theorem Entry.deepCopy_text : (e : Entry) → e.Clean → (∀ tp sp, e.deepCopy.render tp sp = e.render tp sp) ∧
    e.deepCopy.inlinePiece = e.inlinePiece ∧ e.deepCopy.Clean
  | .mk key v, h => by
    obtain ⟨h1, h2⟩ := Item.deepCopy_text v h.1
    have hclean : (Entry.mk key v).deepCopy.Clean := by
      refine ⟨h2, fun hk => by
        have hkd := Item.deepCopy_kind v
        rw [hkd.2.2.1, hkd.2.2.2.1]; exact h.2.1 hk, ?_⟩
      intro tb htb hs
      cases v with
      | table tb0 =>
        cases htb
        obtain ⟨g1, g2, g4, g3⟩ := h.2.2 tb0 rfl (by rw [Tbl.deepCopy_fields] at hs; exact hs)
        rw [Tbl.deepCopy_fields]
        refine ⟨g1, g2, by rw [Tbl.cont_mk, Cont.deepCopy_body]; simpa using g4, ?_⟩
        intro hd e he
        rw [Tbl.cont_mk, Cont.deepCopy_body] at he
        obtain ⟨e', he', rfl⟩ := List.mem_map.1 he
        rcases e' with ⟨k, v⟩
        exact (Item.deepCopy_kind v).2.2.2.2.2.1.trans (g3 hd _ he')
      | aot ts t n p =>
        unfold Item.deepCopy mkAoT at htb; cases htb
      | _ => cases htb
    refine ⟨?_, ?_, hclean⟩
    · intro tp sp
      cases key with
      | none => exact h1
      | some k =>
        cases v with
        | table tb =>
          show tb.deepCopy.render k tp = tb.render k tp
          have hh := tableHeader_deepCopy k tp tb h
          rcases tb with ⟨c, t, a, s, n, d⟩
          obtain ⟨⟨_, g⟩, _⟩ := Cont.deepCopy_text c h.1.1
          show tableHeader k tp (Tbl.mk c t a s n d).deepCopy ++ c.deepCopy.renderBody _ _ _ =
            tableHeader k tp (Tbl.mk c t a s n d) ++ c.renderBody _ _ _
          rw [hh, g]; rfl
        | aot ts t n p =>
          obtain ⟨rfl, rfl, ht⟩ := h.1
          obtain ⟨_, g, _⟩ := deepCopyTables_text ts ht
          show (Entry.mk (some k) (mkAoT ts.deepCopyTables n true)).render tp sp = _
          rw [mkAoT_parsed]
          exact g _
        | array gs t ml =>
          show simpleHead k t sp ++ ((Item.array gs t ml).deepCopy.asString ++ simpleTail t) = _
          rw [h1]; rfl
        | inline c t new =>
          show simpleHead k t sp ++ ((Item.inline c t new).deepCopy.asString ++ simpleTail t) = _
          rw [h1]; rfl
        | null t => exact absurd (h.2.1 rfl) (by simp [Item.isNull])
        | _ => rfl
    · cases key with
      | none => exact h1
      | some k =>
        cases v with
        | table tb =>
          show tb.deepCopy.trivia.indent ++ (k.orig ++ (_ ++ (_ ++ ((Item.table tb).deepCopy.asString ++ (tb.deepCopy.trivia.comment ++ dropNl tb.deepCopy.trivia.trail))))) = _
          rw [h1, Tbl.deepCopy_fields]; rfl
        | aot ts t n p =>
          obtain ⟨rfl, rfl, ht⟩ := h.1
          obtain ⟨g, _, _⟩ := deepCopyTables_text ts ht
          show (Entry.mk (some k) (mkAoT ts.deepCopyTables n true)).inlinePiece = _
          rw [mkAoT_parsed]
          show _ ++ (_ ++ (_ ++ (_ ++ (aotStr ts.deepCopyTables ++ _)))) = _ ++ (_ ++ (_ ++ (_ ++ (aotStr ts ++ _))))
          rw [g]; rfl
        | array gs t ml =>
          show t.indent ++ (k.orig ++ (_ ++ (_ ++ ((Item.array gs t ml).deepCopy.asString ++ _)))) = _
          rw [h1]; rfl
        | inline c t new =>
          show t.indent ++ (k.orig ++ (_ ++ (_ ++ ((Item.inline c t new).deepCopy.asString ++ _)))) = _
          rw [h1]; rfl
        | null t => exact absurd (h.2.1 rfl) (by simp [Item.isNull])
        | _ => rfl
theorem deepCopyTables_text : (ts : List Tbl) → cleanTables ts → aotStr ts.deepCopyTables = aotStr ts ∧
    (∀ key, aotRender key ts.deepCopyTables = aotRender key ts) ∧ cleanTables ts.deepCopyTables
  | [], _ => ⟨rfl, fun _ => rfl, trivial⟩
  | t :: r, h => by
    obtain ⟨h1, h2, h3⟩ := Tbl.deepCopy_text t h.1
    obtain ⟨g1, g2, g3⟩ := deepCopyTables_text r h.2
    refine ⟨?_, ?_, h3, g3⟩
    · show t.deepCopy.asString ++ aotStr r.deepCopyTables = _
      rw [h1, g1]; rfl
    · intro key
      show t.deepCopy.renderAotElem key ++ aotRender key r.deepCopyTables = _
      rw [h2, g2]; rfl
end

end Tomlkit
