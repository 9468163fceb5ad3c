import Verif.Spec.Union
import Verif.Proofs.CopyData
import Verif.Proofs.DeepEdit
/-!
# A table written in several places holds the union of its parts
-/
namespace Tomlkit
open _root_.Spec Tomlkit.Spec

/-! ### what does not matter -/

theorem entriesOf_setTrivia (v : Item) (t : Trivia) : entriesOf (v.setTrivia t) = entriesOf v := by
  rcases v with _ | _ | _ | _ | _ | _ | _ | _ | _ | _ | _ | ⟨_, _, _, _, _, _⟩ | _ | _ <;> rfl
theorem elementsOf_setTrivia (v : Item) (t : Trivia) : elementsOf (v.setTrivia t) = elementsOf v := by
  cases v <;> rfl
theorem itemShape_setTrivia (v : Item) (t : Trivia) : itemShape (v.setTrivia t) = itemShape v := by
  cases v <;> rfl

theorem written_setTrivia (v : Item) (t : Trivia) (p : List Hop) (s : Shape) : Written p (v.setTrivia t) s ↔ Written p v s := by
  rcases p with _ | ⟨k | n, p⟩
  · simp only [Written, itemShape_setTrivia]
  · simp only [Written, entriesOf_setTrivia]
  · simp only [Written, elementsOf_setTrivia]

theorem written_setName (v : Item) (k : Str) (p : List Hop) (s : Shape) : Written p (v.setName k) s ↔ Written p v s := by
  rcases v with _ | _ | _ | _ | _ | _ | _ | _ | _ | _ | _ | ⟨_, _, _, _, _, _⟩ | _ | _ <;>
    rcases p with _ | ⟨k | n, p⟩ <;> exact Iff.rfl

theorem prepare_parsed_written {c : Cont} (hc : c.parsed = true) {key : Option SKey} {v w : Item} (h : c.prepare key v = .ok w)
    (p : List Hop) (s : Shape) : Written p w s ↔ Written p v s := by
  unfold Cont.prepare at h
  have key0 : ∀ (o : Option Item), (∀ i, o = some i → (Written p i s ↔ Written p v s)) →
      (match o with
        | none => (.error .attributeError : Except Err Item)
        | some (.table tb) =>
          let tb := if c.parsed then tb else tb.invalidate
          if !c.body.isEmpty && !(c.parsed || !tb.trivia.indent.isEmpty || c.prevWs) && !isDottedKey key then
            .ok (.table (tb.setTrivia { tb.trivia with indent := [10] }))
          else .ok (.table tb)
        | some (.aot ts t n p) =>
          if !c.body.isEmpty && !c.parsed then
            match invalidateAll ts with
            | [] => .ok (.aot [] t n p)
            | h :: r =>
              if hasNl h.trivia.indent || c.prevWs then .ok (.aot (h :: r) t n p)
              else .ok (.aot (h.setTrivia { h.trivia with indent := 10 :: h.trivia.indent } :: r) t n p)
          else .ok (.aot ts t n p)
        | some i => .ok i) = .ok w → (Written p w s ↔ Written p v s) := by
    intro o ho hh
    rcases o with _ | i
    · cases hh
    · have hi := ho i rfl
      rw [← hi]
      rcases i with _ | _ | _ | _ | _ | _ | _ | _ | _ | _ | _ | tb | ⟨ts, t, n, p⟩ | _
      case table =>
        simp only [hc, if_true, Bool.true_or, Bool.not_true, Bool.and_false, Bool.false_and, Bool.false_eq_true, if_false] at hh
        cases hh; exact Iff.rfl
      case aot =>
        simp only [hc, Bool.not_true, Bool.and_false, Bool.false_eq_true, if_false] at hh
        cases hh; exact Iff.rfl
      all_goals (cases hh; exact Iff.rfl)
  refine key0 _ ?_ h
  intro i hi
  split at hi
  · rcases key with _ | k
    · cases hi
    · simp only [Option.map_some, Option.some.injEq] at hi
      subst hi; exact written_setName _ _ _ _
  · cases hi; exact Iff.rfl

/-! ### deep copies -/

/-- the values of the groups -/
def groupVals (gs : List AGroup) : List Item :=
  (gs.flatMap fun g => match g with | .noval .. => [] | .val _ v _ _ => [v]).filter Item.isData

theorem groupVals_append (a b : List AGroup) : groupVals (a ++ b) = groupVals a ++ groupVals b := by
  unfold groupVals; rw [List.flatMap_append, List.filter_append]

theorem groupVals_flush (g : GroupSt) : groupVals (flushGroup g) = g.v.toList.filter Item.isData := by
  rcases g with ⟨i, _ | v, c, m⟩
  · unfold flushGroup
    split <;> rfl
  · have : (GroupSt.mk i (some v) c m).nonEmpty = true := by simp [GroupSt.nonEmpty]
    unfold flushGroup
    rw [if_pos this]
    rfl

theorem groupVals_loop (l : List Item) : ∀ g : GroupSt, groupVals (groupLoop g l) = g.v.toList.filter Item.isData ++ l.filter Item.isData := by
  induction l with
  | nil => intro g; rw [groupLoop, groupVals_flush]; simp
  | cons it r ih =>
    intro g
    by_cases hv : it.isValue = true
    · rw [groupLoop_value hv]
      rcases hg : g.v with _ | v
      · simp only
        rw [ih]
        simp only [Option.toList, List.filter_cons, List.filter_nil, List.nil_append]
        split <;> rfl
      · simp only
        rw [groupVals_append, groupVals_flush, ih, hg]
        simp only [Option.toList, List.filter_cons, List.filter_nil]
        split <;> split <;> simp_all
    · have hnull : ∀ o : Option Item, (some (o.getD Item.nullItem)).toList.filter Item.isData = o.toList.filter Item.isData := by
        intro o; rcases o with _ | v <;> rfl
      cases it with
      | ws s f =>
        rw [groupLoop]
        have h0 : List.filter Item.isData (Item.ws s f :: r) = List.filter Item.isData r := rfl
        rw [h0]
        split
        · rw [groupVals_append, groupVals_flush, ih]; rfl
        · simp only
          rw [ih]
          simp only [hnull]
      | comment t =>
        rw [groupLoop]
        have h0 : List.filter Item.isData (Item.comment t :: r) = List.filter Item.isData r := rfl
        rw [h0, ih]
        simp only [hnull]
      | _ => exact absurd rfl hv

theorem groupItems_vals (gs : List AGroup) : (groupItems gs).filter Item.isData = groupVals gs := by
  have hws : ∀ o : Option Str, List.filter Item.isData (o.map fun s => Item.ws s false).toList = [] := by
    intro o; cases o <;> rfl
  have hcm : ∀ o : Option Trivia, List.filter Item.isData (o.map Item.comment).toList = [] := by
    intro o; cases o <;> rfl
  induction gs with
  | nil => rfl
  | cons g r ih =>
    have e : groupVals (g :: r) = groupVals [g] ++ groupVals r := groupVals_append [g] r
    unfold groupItems at ih ⊢
    rw [List.flatMap_cons, List.filter_append, ih, e]
    congr 1
    cases g with
    | noval i c m => simp only [AGroup.items, List.filter_append, hws, hcm, groupVals]; rfl
    | val i v c m =>
      simp only [AGroup.items, List.filter_append, hws, hcm, List.append_nil, List.nil_append, groupVals, List.flatMap_cons, List.flatMap_nil]

theorem groupVals_deepCopy (gs : List AGroup) : groupVals (gs.map AGroup.deepCopy) = (groupVals gs).map Item.deepCopy := by
  induction gs with
  | nil => rfl
  | cons g r ih =>
    have e : groupVals (g :: r) = groupVals [g] ++ groupVals r := groupVals_append [g] r
    have e' : groupVals ((g :: r).map AGroup.deepCopy) = groupVals [g.deepCopy] ++ groupVals (r.map AGroup.deepCopy) :=
      groupVals_append [g.deepCopy] _
    rw [e', ih, e, List.map_append]
    congr 1
    cases g with
    | noval i c m => rfl
    | val i v c m =>
      show List.filter Item.isData [v.deepCopy] = (List.filter Item.isData [v]).map Item.deepCopy
      simp only [List.filter_cons, List.filter_nil, isData_deepCopy]
      split <;> rfl

theorem mkAoT_conts (p : Bool) (l : List Tbl) : ∀ acc : List Tbl,
    (l.foldl (aotAppend { trail := [] } p) acc).map Tbl.cont = acc.map Tbl.cont ++ l.map Tbl.cont := by
  induction l with
  | nil => intro acc; simp
  | cons a r ih =>
    intro acc
    rw [List.foldl_cons, ih]
    obtain ⟨v', h1, h2⟩ := aotAppend_end { trail := [] } p acc a
    have : v'.cont = a.cont := by
      rcases h2 with rfl | ⟨t, rfl⟩
      · rfl
      · rcases a with ⟨_, _, _, _, _, _⟩; rfl
    rw [h1]
    simp [this]

theorem deepCopyEntries_map (b : List Entry) : b.deepCopyEntries = b.map Entry.deepCopy := by
  induction b with
  | nil => rfl
  | cons g r ih => unfold List.deepCopyEntries; rw [ih]; rfl

theorem written_table_cont {t t' : Tbl} (h : t'.cont = t.cont) (p : List Hop) (s : Shape) :
    Written p (.table t') s ↔ Written p (.table t) s := by
  rcases p with _ | ⟨k | n, p⟩
  · exact Iff.rfl
  · simp only [Written, entriesOf, h]
  · exact Iff.rfl

theorem written_deepCopy : ∀ (p : List Hop) (v : Item) (s : Shape), Written p v.deepCopy s ↔ Written p v s
  | [], v, s => by
    have hgv : ∀ gs t ml, elementsOf (Item.array gs t ml) = groupVals gs := fun _ _ _ => rfl
    unfold Written
    rcases v with _ | _ | _ | _ | _ | _ | _ | _ | _ | ⟨gs, t, ml⟩ | _ | tb | ⟨ts, t, nm, p⟩ | _
    case array =>
      show Shape.list (elementsOf (Item.array (groupValues (groupItems gs.deepCopyGroups)) t ml)).length = s ↔ _
      rw [hgv, deepCopyGroups_eq]
      unfold groupValues
      rw [groupVals_loop, groupItems_vals, groupVals_deepCopy]
      simp [itemShape, hgv]
    case aot =>
      show Shape.list (ts.deepCopyTables.foldl (aotAppend { trail := [] } p) []).length = s ↔ Shape.list ts.length = s
      have h := congrArg List.length (mkAoT_conts p ts.deepCopyTables [])
      simp only [List.length_map, List.map_nil, List.nil_append, deepCopyTables_eq] at h
      rw [deepCopyTables_eq, h]
    all_goals exact Iff.rfl
  | .key k :: p, v, s => by
    have hm : ∀ b : List Entry, (∃ key w, Entry.mk (some key) w ∈ b.deepCopyEntries ∧ key.key = k ∧ Written p w s) ↔
        ∃ key w, Entry.mk (some key) w ∈ b ∧ key.key = k ∧ Written p w s := by
      intro b
      rw [deepCopyEntries_map]
      constructor
      · rintro ⟨key, w, h1, h2, h3⟩
        obtain ⟨⟨k', w'⟩, h4, h5⟩ := List.mem_map.1 h1
        cases h5
        exact ⟨key, w', h4, h2, (written_deepCopy p w' s).1 h3⟩
      · rintro ⟨key, w, h1, h2, h3⟩
        exact ⟨key, w.deepCopy, List.mem_map.2 ⟨_, h1, rfl⟩, h2, (written_deepCopy p w s).2 h3⟩
    unfold Written
    rcases v with _ | _ | _ | _ | _ | _ | _ | _ | _ | _ | ⟨⟨b, m, d, pp, tk⟩, t, n⟩ | ⟨⟨b, m, d, pp, tk⟩, _, _, _, _, _⟩ | _ | _
    case inline => exact hm b
    case table => exact hm b
    all_goals exact Iff.rfl
  | .idx n :: p, v, s => by
    have hgv : ∀ gs t ml, elementsOf (Item.array gs t ml) = groupVals gs := fun _ _ _ => rfl
    unfold Written
    rcases v with _ | _ | _ | _ | _ | _ | _ | _ | _ | ⟨gs, t, ml⟩ | _ | tb | ⟨ts, t, nm, pp⟩ | _
    case array =>
      show (∃ w, (elementsOf (Item.array (groupValues (groupItems gs.deepCopyGroups)) t ml))[n]? = some w ∧ Written p w s) ↔ _
      rw [hgv, deepCopyGroups_eq]
      unfold groupValues
      rw [groupVals_loop, groupItems_vals, groupVals_deepCopy, hgv]
      simp only [Option.toList, List.filter_nil, List.nil_append, List.getElem?_map]
      constructor
      · rintro ⟨w, h1, h2⟩
        obtain ⟨w', h3, rfl⟩ := Option.map_eq_some_iff.1 h1
        exact ⟨w', h3, (written_deepCopy p w' s).1 h2⟩
      · rintro ⟨w, h1, h2⟩
        exact ⟨w.deepCopy, by rw [h1]; rfl, (written_deepCopy p w s).2 h2⟩
    case aot =>
      show (∃ w, (elementsOf (mkAoT ts.deepCopyTables nm pp))[n]? = some w ∧ Written p w s) ↔ _
      have h := mkAoT_conts pp ts.deepCopyTables []
      rw [deepCopyTables_eq] at h ⊢
      unfold mkAoT elementsOf
      simp only [List.map_nil, List.nil_append] at h
      have hn := congrArg (·[n]?) h
      simp only [List.getElem?_map] at hn ⊢
      constructor
      · rintro ⟨w, h1, h2⟩
        obtain ⟨t1, h3, rfl⟩ := Option.map_eq_some_iff.1 h1
        rw [h3] at hn
        rcases ht : ts[n]? with _ | t0
        · rw [ht] at hn; cases hn
        · rw [ht] at hn
          simp only [Option.map_some, Option.some.injEq] at hn
          refine ⟨.table t0, rfl, ?_⟩
          refine (written_deepCopy p (.table t0) s).1 ?_
          exact (written_table_cont hn p s).1 h2
      · rintro ⟨w, h1, h2⟩
        obtain ⟨t0, h3, rfl⟩ := Option.map_eq_some_iff.1 h1
        rw [h3] at hn
        rcases ht : (List.foldl (aotAppend { trail := [] } pp) [] (ts.map Tbl.deepCopy))[n]? with _ | t1
        · rw [ht] at hn; cases hn
        · rw [ht] at hn
          simp only [Option.map_some, Option.some.injEq] at hn
          refine ⟨.table t1, rfl, ?_⟩
          refine (written_table_cont hn p s).2 ?_
          exact (written_deepCopy p (.table t0) s).2 h2
    all_goals exact Iff.rfl

/-! ### appending -/

/-- the keys written in a body -/
def WrittenB (b : List Entry) (k : Str) (p : List Hop) (s : Shape) : Prop :=
  ∃ key v, Entry.mk (some key) v ∈ b ∧ key.key = k ∧ Written p v s

theorem writtenB_append (a b : List Entry) (k : Str) (p : List Hop) (s : Shape) :
    WrittenB (a ++ b) k p s ↔ WrittenB a k p s ∨ WrittenB b k p s := by
  constructor
  · rintro ⟨key, v, h1, h2, h3⟩
    rcases List.mem_append.1 h1 with h | h
    · exact .inl ⟨key, v, h, h2, h3⟩
    · exact .inr ⟨key, v, h, h2, h3⟩
  · rintro (⟨key, v, h1, h2, h3⟩ | ⟨key, v, h1, h2, h3⟩)
    · exact ⟨key, v, List.mem_append.2 (.inl h1), h2, h3⟩
    · exact ⟨key, v, List.mem_append.2 (.inr h1), h2, h3⟩

theorem writtenB_one (key : Option SKey) (v : Item) (k : Str) (p : List Hop) (s : Shape) :
    WrittenB [.mk key v] k p s ↔ key.map SKey.key = some k ∧ Written p v s := by
  constructor
  · rintro ⟨key, v, h1, h2, h3⟩
    rcases List.mem_singleton.1 h1
    exact ⟨congrArg some h2, h3⟩
  · rintro ⟨h1, h2⟩
    rcases key with _ | key
    · cases h1
    · exact ⟨key, v, List.mem_singleton.2 rfl, Option.some.inj h1, h2⟩

theorem writtenB_nil (k : Str) (p : List Hop) (s : Shape) : ¬ WrittenB [] k p s := by
  rintro ⟨key, v, h1, _⟩; cases h1

theorem written_table (t : Tbl) (k : Str) (p : List Hop) (s : Shape) : Written (.key k :: p) (.table t) s ↔ WrittenB t.cont.body k p s := Iff.rfl

/-- setting one entry to another item with the same key -/
theorem writtenB_set {b : List Entry} {i : Nat} {key : Option SKey} {v w : Item} (hb : b[i]? = some (.mk key v)) (k : Str) (p : List Hop) (s : Shape)
    (P : Prop) (h : key.map SKey.key = some k → (Written p w s ↔ Written p v s ∨ P)) (hP : P → key.map SKey.key = some k) :
    WrittenB (b.set i (.mk key w)) k p s ↔ WrittenB b k p s ∨ P := by
  have hi := (List.getElem?_eq_some_iff.1 hb).1
  have e : b.set i (.mk key w) = b.take i ++ ([.mk key w] ++ b.drop (i + 1)) := by
    rw [List.set_eq_take_append_cons_drop, if_pos hi]; rfl
  have e' : b = b.take i ++ ([.mk key v] ++ b.drop (i + 1)) := by
    have h2 := (List.getElem?_eq_some_iff.1 hb).2
    conv => lhs; rw [← List.take_append_drop i b, List.drop_eq_getElem_cons hi, h2]
    rfl
  rw [e]
  conv => rhs; rw [e']
  simp only [writtenB_append, writtenB_one]
  constructor
  · rintro (h1 | ⟨h1, h2⟩ | h1)
    · exact .inl (.inl h1)
    · rcases (h h1).1 h2 with h3 | h3
      · exact .inl (.inr (.inl ⟨h1, h3⟩))
      · exact .inr h3
    · exact .inl (.inr (.inr h1))
  · rintro ((h1 | ⟨h1, h2⟩ | h1) | h1)
    · exact .inl h1
    · exact .inr (.inl ⟨h1, (h h1).2 (.inl h2)⟩)
    · exact .inr (.inr h1)
    · exact .inr (.inl ⟨hP h1, (h (hP h1)).2 (.inr h1)⟩)

theorem writtenB_setTriviaAt (i : Nat) (f : Trivia → Trivia) (b : List Entry) (k : Str) (p : List Hop) (s : Shape) :
    WrittenB (setTriviaAt i f b) k p s ↔ WrittenB b k p s := by
  unfold setTriviaAt
  rcases hb : b[i]? with _ | ⟨key, v⟩
  · have hle : b.length ≤ i := List.getElem?_eq_none_iff.1 hb
    have e : b.modify i (fun e => .mk e.key (e.v.setTrivia (f e.v.trivia))) = b := by
      apply List.ext_getElem?
      intro j
      rw [List.getElem?_modify]
      by_cases hj : i = j
      · subst hj; rw [hb]; simp
      · simp [hj]
    rw [e]
  · have e : b.modify i (fun e => .mk e.key (e.v.setTrivia (f e.v.trivia))) = b.set i (.mk key (v.setTrivia (f v.trivia))) := by
      apply List.ext_getElem?
      intro j
      rw [List.getElem?_modify, List.getElem?_set]
      by_cases hj : i = j
      · subst hj
        have := (List.getElem?_eq_some_iff.1 hb).1
        rw [hb]; simp [this, Entry.key, Entry.v]
      · simp [hj]
    rw [e]
    have := writtenB_set hb k p s False (w := v.setTrivia (f v.trivia)) (fun _ => by rw [written_setTrivia]; simp) (fun h => h.elim)
    rw [or_false] at this
    exact this

/-- what appending adds -/
def AddsKey (b b' : List Entry) (key : Option SKey) (v : Item) : Prop :=
  ∀ k p s, WrittenB b' k p s ↔ WrittenB b k p s ∨ (key.map SKey.key = some k ∧ Written p v s)

theorem addsKey_push {b : List Entry} {key : Option SKey} {v w : Item} (h : ∀ p s, Written p w s ↔ Written p v s) :
    AddsKey b (b ++ [.mk key w]) key v := by
  intro k p s
  rw [writtenB_append, writtenB_one, h]

theorem appendTail_raw {c : Cont} (h : c.parsed = true) (key : Option SKey) (v : Item) : c.appendTail key v = c.rawAppend key v := by
  rcases key with _ | k
  · rfl
  · unfold Cont.appendTail
    simp only [h, Bool.not_true, Bool.and_false, Bool.false_and, Bool.false_eq_true, if_false]

theorem append1_adds : ∀ n, (∀ {validate : Bool} {c : Cont} {key : Option SKey} {item : Item} {c' : Cont} {mv : Bool},
      c.Good Cont.WF → item.Good Cont.WF → Cont.append1 n true validate c key item = .ok (c', mv) → AddsKey c.body c'.body key item) ∧
    (∀ {t : Tbl} {key : Option SKey} {item : Item} {t' : Tbl} {mv : Bool},
      t.Good Cont.WF → item.Good Cont.WF → Tbl.append1 n true t key item = .ok (t', mv) → AddsKey t.cont.body t'.cont.body key item) := by
  intro n
  induction n with
  | zero =>
    constructor
    · intro _ _ _ _ _ _ _ _ h; rw [Cont.append1] at h; cases h
    · intro _ _ _ _ _ _ _ h; rw [Tbl.append1] at h; cases h
  | succ n ih =>
    constructor
    · intro validate c key item c' mv hc hi hr
      have hwf : c.WF := ((Cont.good_iff _).1 hc).1
      have hpar : c.parsed = true := by
        rw [Cont.append1] at hr
        split at hr
        · cases hr
        · rename_i h; simpa using h
      have hraw : ∀ {item' c'}, c.prepare key item = .ok item' → c.rawAppend key item' = .ok c' → AddsKey c.body c'.body key item := by
        intro item' c' hp hr
        have e : c'.body = c.body ++ [.mk key item'] := rawAppend_body hr
        rw [e]
        exact addsKey_push (prepare_parsed_written hpar hp)
      cases append1_cases hr with
      | fresh item' _ hp hk ht =>
        rw [appendTail_raw hpar] at ht
        exact hraw hp ht
      | again item' _ k i cur ct tb hp hk hl hcv hi' ht =>
        rw [appendTail_raw hpar] at ht
        exact hraw hp ht
      | aotAdd item' k i cur tb ts t nm p hp hk hal hl hcv hi' ha => cases hal
      | toAoT item' k i cur tb ct _ hp hk hal hl hcv hi' ha hr2 => cases hal
      | superApart item' k i cur tb ct _ idx hp hk hl hcv hi' hs hs' hidx hr2 hv =>
        rw [hpar] at hidx
        simp only [Bool.not_true, Bool.and_false, Bool.false_eq_true, if_false] at hidx
        rw [hidx, if_neg (Nat.lt_irrefl _)] at hr2
        exact hraw hp hr2
      | superMerge item' k i cur tb ct ct' mv hp hk hl hcv hi' hs hs' hd hd' hf =>
        obtain ⟨is', h1, h2, h3, h4, h5, h6⟩ := Cont.lastEntry_spec hwf hl
        have hg := prepare_good closed_WF hi hp
        have hwr := prepare_parsed_written hpar hp
        subst hi'
        have hcg := good_at hc h3
        rw [hcv] at hcg
        have hbody := ((Cont.good_iff _).1 ((Tbl.good_iff _).1 ((Item.good_table _).1 hg))).2
        -- the merged table
        have hfold : ∀ (l : List Entry), (∀ e ∈ l, e.v.Good Cont.WF) → ∀ (t0 : Tbl) (m0 : Bool) (t1 : Tbl) (m1 : Bool), t0.Good Cont.WF →
            foldE (fun (p : Tbl × Bool) (e : Entry) => (Tbl.append1 n true p.1 e.key e.v).map fun q => (q.1, p.2 || q.2)) (t0, m0) l = .ok (t1, m1) →
            ∀ k p s, WrittenB t1.cont.body k p s ↔ WrittenB t0.cont.body k p s ∨ WrittenB l k p s := by
          intro l
          induction l with
          | nil =>
            intro _ t0 m0 t1 m1 _ h k p s
            cases h
            simp [writtenB_nil]
          | cons e r ihl =>
            intro hl' t0 m0 t1 m1 ht0 h k p s
            rcases e with ⟨ek, ev⟩
            rw [foldE] at h
            rcases hx : Tbl.append1 n true t0 ek ev with er | ⟨t2, m2⟩
            · simp only [Entry.key, Entry.v, hx, Except.map] at h
              cases h
            · simp only [Entry.key, Entry.v, hx, Except.map] at h
              have hev : ev.Good Cont.WF := hl' _ (List.mem_cons_self ..)
              have ha := ih.2 ht0 hev hx k p s
              have hg2 := (append1_good closed_WF n).2 ht0 hev hx
              rw [ihl (fun e he => hl' e (List.mem_cons_of_mem _ he)) t2 _ t1 m1 hg2 h k p s, ha]
              have : WrittenB (Entry.mk ek ev :: r) k p s ↔ WrittenB [.mk ek ev] k p s ∨ WrittenB r k p s := writtenB_append [_] r k p s
              rw [this, writtenB_one, or_assoc]
        have hmerge := hfold _ hbody _ _ _ _ (Tbl.deepCopy_good closed_WF ct hcg) hf
        rcases cur with ⟨ck, cv⟩
        simp only [Entry.v] at hcv
        subst hcv
        have hck : ck.map SKey.key = some k.key := h4
        intro k' p s
        subst hk
        have hkey : (some k).map SKey.key = some k.key := rfl
        refine writtenB_set h3 k' p s _ ?_ (fun h => by rw [hck]; exact h.1)
        intro hk'
        rw [hck] at hk'
        rw [hkey]
        simp only [hk', true_and]
        rw [← hwr]
        rcases p with _ | ⟨kk | nn, p⟩
        · show itemShape (.table ct') = s ↔ itemShape (.table ct) = s ∨ itemShape (.table tb) = s
          simp [itemShape]
        · rw [written_table, written_table, written_table, hmerge]
          have := written_deepCopy (.key kk :: p) (.table ct) s
          rw [written_table] at this
          exact or_congr this Iff.rfl
        · simp [Written, elementsOf]
      | aotMerge item' k i cur ts t nm p ts' t' nm' p' hp hk hal hl hcv hi' => cases hal
    · intro t key item t' mv ht hi hr
      rw [Tbl.append1] at hr
      rcases hx : Cont.append1 n true true t.cont key item with er | ⟨c, m1⟩ <;> rw [hx] at hr <;> dsimp only at hr
      · cases hr
      have hc := ih.1 ((Tbl.good_iff t).1 ht) hi hx
      have hcont : ∀ c, (t.setCont c).cont = c := by intro c; rcases t with ⟨_, _, _, _, _, _⟩; rfl
      split at hr
      · cases hr
      rcases hsp : spaceRun t.trivia.indent with _ | ind <;> rw [hsp] at hr <;> dsimp only at hr
      · cases hr; rw [hcont]; exact hc
      split at hr
      · cases hr
      split at hr
      · cases hr
      split at hr
      · cases hr; rw [hcont]; exact hc
      split at hr
      · cases hr
      · cases hr
        intro k p s
        rw [hcont]
        rw [Cont.body_mk, writtenB_setTriviaAt]
        exact hc k p s

/-- the scratch container of a proxy holds what the parts hold -/
theorem mkProxy_holds {n : Nat} {c pc : Cont} (hc : c.Good Cont.WF) {is : List Nat} (h : Cont.mkProxy n c is = .ok pc) :
    pc.Good Cont.WF ∧ ∀ k p s, WrittenB pc.body k p s ↔ ∃ tb ∈ tablesAt c.body is, WrittenB tb.cont.body k p s := by
  rcases n with _ | n
  · rw [Cont.mkProxy] at h; cases h
  rw [Cont.mkProxy] at h
  split at h
  · cases h
  rename_i p' hf
  split at h
  · cases h
  cases h
  have hts : ∀ tb ∈ tablesAt c.body is, tb.Good Cont.WF := by
    intro tb ht
    obtain ⟨i, _, h2⟩ := List.mem_filterMap.1 ht
    rcases hb : c.body[i]? with _ | ⟨k, v⟩ <;> rw [hb] at h2
    · cases h2
    · rcases v with _ | _ | _ | _ | _ | _ | _ | _ | _ | _ | _ | tb' | _ | _
      case table => cases h2; exact good_at hc hb
      all_goals cases h2
  have hes : ∀ e ∈ (tablesAt c.body is).flatMap fun t => t.cont.body, e.v.Good Cont.WF := by
    intro e he
    obtain ⟨t, h1, h2⟩ := List.mem_flatMap.1 he
    exact ((Cont.good_iff _).1 ((Tbl.good_iff _).1 (hts t h1))).2 e h2
  have hfold : ∀ (l : List Entry), (∀ e ∈ l, e.v.Good Cont.WF) → ∀ (c0 c1 : Cont), c0.Good Cont.WF →
      foldE (fun p (e : Entry) => (Cont.append1 n true false p e.key e.v).map Prod.fst) c0 l = .ok c1 →
      c1.Good Cont.WF ∧ ∀ k p s, WrittenB c1.body k p s ↔ WrittenB c0.body k p s ∨ WrittenB l k p s := by
    intro l
    induction l with
    | nil =>
      intro _ c0 c1 h0 h
      cases h
      exact ⟨h0, fun k p s => by simp [writtenB_nil]⟩
    | cons e r ihl =>
      intro hl' c0 c1 h0 h
      rcases e with ⟨ek, ev⟩
      rw [foldE] at h
      rcases hx : Cont.append1 n true false c0 ek ev with er | ⟨c2, m2⟩
      · simp only [Entry.key, Entry.v, hx, Except.map] at h
        cases h
      · simp only [Entry.key, Entry.v, hx, Except.map] at h
        have hev : ev.Good Cont.WF := hl' _ (List.mem_cons_self ..)
        have ha := (append1_adds n).1 h0 hev hx
        have hg2 := (append1_good closed_WF n).1 h0 hev hx
        obtain ⟨g1, g2⟩ := ihl (fun e he => hl' e (List.mem_cons_of_mem _ he)) c2 c1 hg2 h
        refine ⟨g1, fun k p s => ?_⟩
        rw [g2, ha]
        have : WrittenB (Entry.mk ek ev :: r) k p s ↔ WrittenB [.mk ek ev] k p s ∨ WrittenB r k p s := writtenB_append [_] r k p s
        rw [this, writtenB_one, or_assoc]
  obtain ⟨g1, g2⟩ := hfold _ hes _ _ (Cont.good_empty closed_WF) hf
  refine ⟨g1, fun k p s => ?_⟩
  rw [g2]
  have he : ¬ WrittenB (Cont.empty true).body k p s := writtenB_nil k p s
  constructor
  · rintro (h | ⟨key, v, h1, h2, h3⟩)
    · exact absurd h he
    · obtain ⟨t, h4, h5⟩ := List.mem_flatMap.1 h1
      exact ⟨t, h4, key, v, h5, h2, h3⟩
  · rintro ⟨t, h4, key, v, h5, h2, h3⟩
    exact .inr ⟨key, v, List.mem_flatMap.2 ⟨t, h4, h5⟩, h2, h3⟩

end Tomlkit
