import Verif.Proofs.Copies
/-!
# Putting the keys in the order of the entries
-/
namespace Tomlkit
open Tomlkit.Spec

theorem rekeyEntries_eq (b : List Entry) : rekeyEntries b = b.map Entry.rekey := by
  induction b with
  | nil => rfl
  | cons e r ih => rw [List.map_cons, ← ih]; rfl
theorem rekeyGroups_eq (b : List AGroup) : rekeyGroups b = b.map AGroup.rekey := by
  induction b with
  | nil => rfl
  | cons e r ih => rw [List.map_cons, ← ih]; rfl
theorem rekeyTables_eq (b : List Tbl) : rekeyTables b = b.map Tbl.rekey := by
  induction b with
  | nil => rfl
  | cons e r ih => rw [List.map_cons, ← ih]; rfl

theorem Item.rekey_kind (v : Item) : v.rekey.isTable = v.isTable ∧ v.rekey.isAoT = v.isAoT ∧
    v.rekey.isNull = v.isNull ∧ v.rekey.isWhitespace = v.isWhitespace ∧ v.rekey.isValue = v.isValue ∧
    v.rekey.isPlain = v.isPlain ∧ v.rekey.isBool = v.isBool ∧ v.rekey.isComment = v.isComment := by
  cases v <;> exact ⟨rfl, rfl, rfl, rfl, rfl, rfl, rfl, rfl⟩

theorem Item.rekey_trivia (v : Item) : v.rekey.trivia = v.trivia := by
  rcases v with _ | _ | _ | _ | _ | _ | _ | _ | _ | _ | _ | ⟨c, t, a, s, n, d⟩ | _ | _ <;> rfl

theorem Item.rekey_tableLike (v : Item) : v.rekey.isTableLike = v.isTableLike := by
  cases v <;> rfl

theorem Tbl.rekey_fields (t : Tbl) : t.rekey = .mk t.cont.rekey t.trivia t.isAot t.superFlag t.name t.display := by
  cases t; rfl

theorem Cont.rekey_fields (c : Cont) : c.rekey = .mk (c.body.map Entry.rekey) c.map (dictOfBody c.body) c.parsed c.tableKeys := by
  cases c; rw [← rekeyEntries_eq]; rfl

theorem rekeyEntries_shape (b : List Entry) : (b.map Entry.rekey).map Entry.shape = b.map Entry.shape := by
  rw [List.map_map]
  congr 1
  funext e
  rcases e with ⟨k, v⟩
  show ((k.map SKey.key), v.rekey.isTable) = _
  rw [(Item.rekey_kind v).1]; rfl

theorem dictOfBody_rekey (b : List Entry) : dictOfBody (b.map Entry.rekey) = dictOfBody b :=
  dictOfBody_shape (rekeyEntries_shape b)

/-- the keys of a consistent container are those of its entries -/
theorem Cont.WF.dict_perm {c : Cont} (h : c.WF) : (dictOfBody c.body).Perm c.dict := by
  obtain ⟨h1, h2⟩ := dictOfBody_spec c.body
  refine (List.perm_ext_iff_of_nodup h1 h.dictNodup).2 fun k => ?_
  have hw : (Cont.mk c.body c.map (dictOfBody c.body) c.parsed c.tableKeys).WF := Cont.WF_copy h
  exact (hw.dictMem k).trans (h.dictMem k).symm

theorem Tbl.truthy_rekey {t : Tbl} (h : t.cont.WF) : t.rekey.truthy = t.truthy := by
  unfold Tbl.truthy
  rw [Tbl.rekey_fields, Tbl.cont_mk, Cont.rekey_fields, Cont.dict_mk, h.dict_perm.length_eq]

theorem isSuper_rekey {t : Tbl} (h : t.cont.WF) : t.rekey.isSuper = t.isSuper := by
  rcases t with ⟨⟨b, m, d, p, tk⟩, tr, a, s, n, dn⟩
  have hp : (dictOfBody b).Perm d := Cont.WF.dict_perm h
  unfold Tbl.isSuper
  rw [Tbl.rekey_fields]
  rcases s with _ | s
  · simp only [Tbl.superFlag_mk, Tbl.cont_mk, Cont.rekey_fields, Cont.dict_mk, Cont.map_mk, Cont.body_mk]
    rcases hd : d with _ | ⟨k, _ | ⟨k2, r⟩⟩
    · rw [hd] at hp
      rw [hp.eq_nil]
    · rw [hd] at hp
      rw [List.perm_singleton.1 hp]
      simp only
      rcases mapGet k m with _ | is
      · rfl
      rcases is with _ | ⟨i, _ | _⟩
      · rfl
      · simp only
        rw [List.getElem?_map]
        rcases b[i]? with _ | ⟨kk, v⟩
        · rfl
        · exact Item.rekey_tableLike v
      · rfl
    · rw [hd] at hp
      have := hp.length_eq
      rcases hb : dictOfBody b with _ | ⟨k', _ | ⟨k2', r'⟩⟩ <;> rw [hb] at this
      all_goals first | rfl | cases this | (simp at this)
  · rfl

theorem body_any_rekey (b : List Entry) : (b.map Entry.rekey).any (fun e => e.v.isPlain) = b.any fun e => e.v.isPlain := by
  rw [List.any_map]
  congr 1
  funext e
  rcases e with ⟨k, v⟩
  exact (Item.rekey_kind v).2.2.2.2.2.1

theorem rekey_lastKey (b : List Entry) : lastKeyIdx (b.map Entry.rekey) = lastKeyIdx b := by
  unfold lastKeyIdx
  rw [List.zipIdx_map, ← List.map_reverse, List.find?_map]
  rw [Option.map_map]
  have : ((fun p : Entry × Nat => p.1.key.isSome) ∘ Prod.map Entry.rekey id) = fun p => p.1.key.isSome := by
    funext p
    rcases p with ⟨⟨k, v⟩, i⟩
    rfl
  rw [this]
  congr 1

theorem tableHeader_rekey (key : SKey) (pfx : Option Str) {tb : Tbl} (h : tb.cont.WF) :
    tableHeader key pfx tb.rekey = tableHeader key pfx tb := by
  have hs := isSuper_rekey h
  have hl : tb.rekey.cont.dict.length = tb.cont.dict.length := by
    rw [Tbl.rekey_fields, Tbl.cont_mk, Cont.rekey_fields, Cont.dict_mk, h.dict_perm.length_eq]
  have hb : tb.rekey.cont.body.any (fun e => e.v.isPlain) = tb.cont.body.any fun e => e.v.isPlain := by
    rw [Tbl.rekey_fields, Tbl.cont_mk, Cont.rekey_fields, Cont.body_mk, body_any_rekey]
  unfold tableHeader showsHeader
  rw [hs, hl, hb, Tbl.rekey_fields]
  rfl

/-! ### the text -/

mutual
theorem Item.rekey_text : (v : Item) → v.Good Cont.WF → v.rekey.asString = v.asString
  | .array gs t ml, h => by
    obtain ⟨h1, h2⟩ := rekeyGroups_text gs h
    show (if (!ml || (rekeyGroups gs).isEmpty) = true then 91 :: (groupsStr (rekeyGroups gs) ++ [93])
      else [91, 10] ++ (groupsMulti t.indent (rekeyGroups gs) ++ (t.indent ++ [93]))) =
      (if (!ml || gs.isEmpty) = true then 91 :: (groupsStr gs ++ [93])
      else [91, 10] ++ (groupsMulti t.indent gs ++ (t.indent ++ [93])))
    have he : (rekeyGroups gs).isEmpty = gs.isEmpty := by rw [rekeyGroups_eq]; cases gs <;> rfl
    rw [h1, h2, he]
  | .inline c t new, h => (Cont.rekey_text c h).2 new
  | .table tb, h => (Tbl.rekey_text tb h).1
  | .aot ts t n p, h => (rekeyTables_text ts h).1
  | .null _, _ => rfl
  | .ws _ _, _ => rfl
  | .comment _, _ => rfl
  | .integer _ _ _, _ => rfl
  | .float _ _ _, _ => rfl
  | .bool _ _, _ => rfl
  | .datetime _ _ _, _ => rfl
  | .date _ _ _, _ => rfl
  | .time _ _ _, _ => rfl
  | .str _ _ _ _, _ => rfl
theorem rekeyGroups_text : (gs : List AGroup) → goodGroups Cont.WF gs → groupsStr (rekeyGroups gs) = groupsStr gs ∧
    ∀ ind, groupsMulti ind (rekeyGroups gs) = groupsMulti ind gs
  | [], _ => ⟨rfl, fun _ => rfl⟩
  | g :: r, h => by
    obtain ⟨h1, h2⟩ := AGroup.rekey_text g h.1
    obtain ⟨h3, h4⟩ := rekeyGroups_text r h.2
    refine ⟨?_, fun ind => ?_⟩
    · show g.rekey.asString ++ groupsStr (rekeyGroups r) = _
      rw [h1, h3]; rfl
    · show g.rekey.multiString ind ++ groupsMulti ind (rekeyGroups r) = _
      rw [h2, h4]; rfl
theorem AGroup.rekey_text : (g : AGroup) → g.Good Cont.WF → g.rekey.asString = g.asString ∧
    ∀ ind, g.rekey.multiString ind = g.multiString ind
  | .noval _ _ _, _ => ⟨rfl, fun _ => rfl⟩
  | .val i v c m, h => by
    have h1 := Item.rekey_text v h
    refine ⟨?_, fun ind => ?_⟩
    · show optStr i ++ (v.rekey.asString ++ _) = _
      rw [h1]; rfl
    · show ind ++ (t!"    " ++ (v.rekey.asString ++ ((if v.rekey.isNull then [] else [44]) ++ (optComment m ++ [10])))) = _
      rw [h1, (Item.rekey_kind v).2.2.1]; rfl
theorem Tbl.rekey_text : (t : Tbl) → t.Good Cont.WF → t.rekey.asString = t.asString ∧
    (∀ key, t.rekey.renderAotElem key = t.renderAotElem key) ∧ ∀ key pfx, t.rekey.render key pfx = t.render key pfx
  | .mk c t a s n d, h => by
    obtain ⟨⟨h1, h2⟩, _⟩ := Cont.rekey_text c h
    refine ⟨h1, fun key => ?_, fun key pfx => ?_⟩
    · show aotHeader key t ++ c.rekey.renderBody false true key = aotHeader key t ++ c.renderBody false true key
      rw [h2]
    · have hw : (Tbl.mk c t a s n d).cont.WF := ((Cont.good_iff c).1 h).1
      have hh := tableHeader_rekey key pfx hw
      show tableHeader key pfx (Tbl.mk c t a s n d).rekey ++ c.rekey.renderBody _ _ _ =
        tableHeader key pfx (Tbl.mk c t a s n d) ++ c.renderBody _ _ _
      rw [hh, h2]; rfl
theorem Cont.rekey_text : (c : Cont) → c.Good Cont.WF →
    (c.rekey.asString = c.asString ∧ ∀ kd ia key, c.rekey.renderBody kd ia key = c.renderBody kd ia key) ∧
    ∀ new, c.rekey.inlineString new = c.inlineString new
  | .mk b m d p tk, h => by
    obtain ⟨h1, h2, h3⟩ := rekeyEntries_text b h.2
    refine ⟨⟨h1, h2⟩, fun new => ?_⟩
    show inlineLoop new (lastKeyIdx (rekeyEntries b)) (rekeyEntries b).length 0 [123] (rekeyEntries b) ++ [125] =
      inlineLoop new (lastKeyIdx b) b.length 0 [123] b ++ [125]
    rw [h3]
    rw [rekeyEntries_eq, rekey_lastKey, List.length_map]
theorem rekeyEntries_text : (b : List Entry) → goodEntries Cont.WF b →
    bodyStr (rekeyEntries b) = bodyStr b ∧
    (∀ kd ia key, tableBodyStr kd ia key (rekeyEntries b) = tableBodyStr kd ia key b) ∧
    (∀ new last len i buf, inlineLoop new last len i buf (rekeyEntries b) = inlineLoop new last len i buf b)
  | [], _ => ⟨rfl, fun _ _ _ => rfl, fun _ _ _ _ _ => rfl⟩
  | e :: r, h => by
    obtain ⟨h1, h2, h3⟩ := rekeyEntries_text r h.2
    obtain ⟨g1, g2⟩ := Entry.rekey_text e h.1
    refine ⟨?_, ?_, ?_⟩
    · show e.rekey.render none none ++ bodyStr (rekeyEntries r) = _
      rw [h1, g1]; rfl
    · intro kd ia key
      show _ ++ tableBodyStr kd ia key (rekeyEntries r) = _
      rw [h2, tableBodyStr]
      congr 1
      rw [g1]
      congr 1
      rcases e with ⟨k, v⟩
      cases v with
      | table tb =>
        have hw : tb.cont.WF := ((Cont.good_iff _).1 ((Tbl.good_iff tb).1 h.1)).1
        have := isSuper_rekey hw
        show (if (tb.rekey.isSuper && isDottedKey k && (ia || !kd)) = true then none else some key) =
          (if (tb.isSuper && isDottedKey k && (ia || !kd)) = true then none else some key)
        rw [this]
      | _ => rfl
    · intro new last len i buf
      rcases e with ⟨k, v⟩
      cases k with
      | none =>
        show inlineLoop new last len (i + 1) (_ ++ (Entry.mk none v).rekey.inlinePiece) (rekeyEntries r) = _
        rw [h3, g2]; rfl
      | some k =>
        show inlineLoop new last len (i + 1) _ (rekeyEntries r) = _
        rw [h3, inlineLoop]
        show inlineLoop new last len (i + 1) (match last with
          | some l => if i < l then (buf ++ (Entry.mk (some k) v).rekey.inlinePiece) ++ _ else _
          | none => _) r = _
        rw [g2]; rfl
theorem Entry.rekey_text : (e : Entry) → e.Good Cont.WF → (∀ tp sp, e.rekey.render tp sp = e.render tp sp) ∧
    e.rekey.inlinePiece = e.inlinePiece
  | .mk key v, h => by
    have h1 := Item.rekey_text v h
    have ht := Item.rekey_trivia v
    refine ⟨?_, ?_⟩
    · intro tp sp
      cases key with
      | none => exact h1
      | some k =>
        cases v with
        | table tb => exact (Tbl.rekey_text tb h).2.2 k tp
        | aot ts t n p => exact (rekeyTables_text ts h).2 _
        | array gs t ml =>
          show simpleHead k t sp ++ ((Item.array gs t ml).rekey.asString ++ simpleTail t) = _
          rw [h1]; rfl
        | inline c t new =>
          show simpleHead k t sp ++ ((Item.inline c t new).rekey.asString ++ simpleTail t) = _
          rw [h1]; rfl
        | _ => rfl
    · cases key with
      | none => exact h1
      | some k =>
        show v.rekey.trivia.indent ++ (k.orig ++ (_ ++ (_ ++ (v.rekey.asString ++ (v.rekey.trivia.comment ++ dropNl v.rekey.trivia.trail))))) = _
        rw [h1, ht]; rfl
theorem rekeyTables_text : (ts : List Tbl) → goodTables Cont.WF ts → aotStr (rekeyTables ts) = aotStr ts ∧
    (∀ key, aotRender key (rekeyTables ts) = aotRender key ts)
  | [], _ => ⟨rfl, fun _ => rfl⟩
  | t :: r, h => by
    obtain ⟨h1, h2, _⟩ := Tbl.rekey_text t h.1
    obtain ⟨g1, g2⟩ := rekeyTables_text r h.2
    refine ⟨?_, ?_⟩
    · show t.rekey.asString ++ aotStr (rekeyTables r) = _
      rw [h1, g1]; rfl
    · intro key
      show t.rekey.renderAotElem key ++ aotRender key (rekeyTables r) = _
      rw [h2, g2]; rfl
end

/-! ### a deep copy -/

theorem groupItems_rekey (gs : List AGroup) : groupItems (gs.map AGroup.rekey) = (groupItems gs).map Item.rekey := by
  unfold groupItems
  rw [List.flatMap_map, List.map_flatMap]
  congr 1
  funext g
  rcases g with ⟨i, c, m⟩ | ⟨i, v, c, m⟩ <;> rcases i with _ | _ <;> rcases c with _ | _ <;> rcases m with _ | _ <;> rfl

/-- rekey the value of a group under construction -/
def GroupSt.rekey (g : GroupSt) : GroupSt := { g with v := g.v.map Item.rekey }

theorem flushGroup_rekey (g : GroupSt) : flushGroup g.rekey = (flushGroup g).map AGroup.rekey := by
  rcases g with ⟨i, v, c, m⟩
  rcases i with _ | _ <;> rcases v with _ | _ <;> rcases c with _ | _ <;> rcases m with _ | _ <;> rfl

theorem groupLoop_rekey (items : List Item) : ∀ g : GroupSt, groupLoop g.rekey (items.map Item.rekey) =
    (groupLoop g items).map AGroup.rekey := by
  induction items with
  | nil => intro g; exact flushGroup_rekey g
  | cons it r ih =>
    intro g
    have hgetD : (g.rekey.v.getD Item.nullItem) = (g.v.getD Item.nullItem).rekey := by
      rcases g with ⟨i, v, c, m⟩; rcases v <;> rfl
    by_cases hv : it.isValue = true
    · rw [List.map_cons, groupLoop_value (by rw [(Item.rekey_kind it).2.2.2.2.1]; exact hv), groupLoop_value hv]
      rcases g with ⟨i, v, c, m⟩
      rcases v with _ | v
      · exact ih ⟨i, some it, c, m⟩
      · show flushGroup (GroupSt.rekey ⟨i, some v, c, m⟩) ++ groupLoop (GroupSt.rekey { v := some it }) _ = _
        rw [ih, flushGroup_rekey, ← List.map_append]
    · cases it with
      | ws s f =>
        show groupLoop g.rekey (.ws s f :: r.map Item.rekey) = _
        rw [groupLoop, groupLoop, hgetD]
        by_cases hc : (!s.contains 44) = true
        · rw [if_pos hc, if_pos hc, List.map_append, ← ih, flushGroup_rekey]; rfl
        · rw [if_neg hc, if_neg hc]
          exact ih { g with v := some (g.v.getD Item.nullItem), comma := some s }
      | comment t =>
        show groupLoop g.rekey (.comment t :: r.map Item.rekey) = _
        rw [groupLoop, groupLoop, hgetD]
        exact ih { g with v := some (g.v.getD Item.nullItem), cmt := some t }
      | _ => exact absurd rfl hv

theorem groupValues_rekey (items : List Item) : groupValues (items.map Item.rekey) = (groupValues items).map AGroup.rekey :=
  groupLoop_rekey items {}

theorem aotAppend_last (ts : List Tbl) (v : Tbl) : aotAppend { trail := [] } false ts v =
    ts ++ [match ts.getLast? with | some p => if p.truthy then nlIndent v else v | none => v] := by
  unfold aotAppend aotInsert
  have : clampIndex (ts.length : Int) ts.length = ts.length := by
    unfold clampIndex
    have h0 : ¬ ((ts.length : Int) < 0) := by omega
    simp only [if_neg h0]
    simp
  rw [this]
  have hs : spaceRun [] = none := by decide
  simp only [hs, Bool.false_eq_true, if_false]
  have h1 : ¬ (ts.length + 1 < ts.length) := by omega
  simp only [h1, decide_false, Bool.false_and, Bool.false_eq_true, if_false, List.insertIdx_length_self, Bool.and_self]
  congr 2
  rcases ts with _ | ⟨t, r⟩
  · rfl
  · rw [if_pos (by simp)]
    rw [List.getLast?_eq_getElem?]
    rcases (t :: r)[(t :: r).length - 1]? <;> rfl

theorem mkAoT_apart {ts : List Tbl} (h : SetApart ts) (n : Option Str) : mkAoT ts n false = .aot ts { trail := [] } n false := by
  unfold mkAoT
  have : ∀ (l acc : List Tbl), SetApart ((acc.getLast?).toList ++ l) → l.foldl (aotAppend { trail := [] } false) acc = acc ++ l := by
    intro l
    induction l with
    | nil => intro acc _; simp
    | cons a r ih =>
      intro acc h
      rw [List.foldl_cons, aotAppend_last]
      have e : (match acc.getLast? with | some p => if p.truthy then nlIndent a else a | none => a) = a := by
        rcases hl : acc.getLast? with _ | p
        · rfl
        · rw [hl] at h
          simp only
          by_cases ht : p.truthy = true
          · rw [if_pos ht]
            have hd : p.cont.dict ≠ [] := by
              intro h0; unfold Tbl.truthy at ht; rw [h0] at ht; simp at ht
            unfold nlIndent
            rw [if_pos (h.1 hd)]
          · rw [if_neg ht]
      rw [e, ih]
      · simp
      · rw [List.getLast?_append]
        show SetApart (a :: r)
        rcases hl : acc.getLast? with _ | p
        · rw [hl] at h; exact h
        · rw [hl] at h; exact h.2
  rw [this ts [] h]; rfl

theorem setApart_rekey : (ts : List Tbl) → (∀ t ∈ ts, t.cont.WF) → SetApart ts → SetApart (ts.map Tbl.rekey)
  | [], _, _ => trivial
  | [_], _, _ => trivial
  | a :: b :: r, hw, h => by
    refine ⟨fun hd => ?_, setApart_rekey (b :: r) (fun t ht => hw t (List.mem_cons_of_mem _ ht)) h.2⟩
    rw [Tbl.rekey_fields] at hd ⊢
    refine h.1 fun h0 => hd ?_
    rw [Tbl.cont_mk, Cont.rekey_fields, Cont.dict_mk]
    have := (hw a (List.mem_cons_self ..)).dict_perm
    rw [h0] at this
    exact this.eq_nil

mutual
theorem Item.deepCopy_rekey : (v : Item) → v.Copyable → v.Good Cont.WF → v.deepCopy = v.rekey
  | .array gs t ml, h, hg => by
    have h1 := deepCopyGroups_rekey gs h.2 hg
    show Item.array (groupValues (groupItems gs.deepCopyGroups)) t ml = .array (rekeyGroups gs) t ml
    rw [h1, rekeyGroups_eq, groupItems_rekey, groupValues_rekey, h.1]
  | .inline c t new, h, hg => by
    show Item.inline c.deepCopy t false = .inline c.rekey t new
    rw [Cont.deepCopy_rekey c h.2 hg, h.1]
  | .table tb, h, hg => congrArg Item.table (Tbl.deepCopy_rekey tb h hg)
  | .aot ts t n p, h, hg => by
    obtain ⟨rfl, hp, ht⟩ := h
    have h1 := deepCopyTables_rekey ts ht hg
    show mkAoT ts.deepCopyTables n p = .aot (rekeyTables ts) _ n p
    rw [h1]
    rcases p with _ | _
    · rcases hp with hp | hp
      · cases hp
      · rw [mkAoT_apart]
        rw [rekeyTables_eq]
        refine setApart_rekey ts (fun t ht => ?_) hp
        exact ((Cont.good_iff _).1 ((Tbl.good_iff t).1 ((goodTables_iff ts).1 hg t ht))).1
    · rw [mkAoT_parsed]
  | .null t, h, _ => by
    have h : t = { trail := [] } := h
    subst h; rfl
  | .ws _ _, _, _ => rfl
  | .comment _, _, _ => rfl
  | .integer _ _ _, _, _ => rfl
  | .float _ _ _, _, _ => rfl
  | .bool _ _, _, _ => rfl
  | .datetime _ _ _, _, _ => rfl
  | .date _ _ _, _, _ => rfl
  | .time _ _ _, _, _ => rfl
  | .str _ _ _ _, _, _ => rfl
theorem deepCopyGroups_rekey : (gs : List AGroup) → copyableGroups gs → goodGroups Cont.WF gs → gs.deepCopyGroups = rekeyGroups gs
  | [], _, _ => rfl
  | g :: r, h, hg => by
    show g.deepCopy :: r.deepCopyGroups = g.rekey :: rekeyGroups r
    rw [AGroup.deepCopy_rekey g h.1 hg.1, deepCopyGroups_rekey r h.2 hg.2]
theorem AGroup.deepCopy_rekey : (g : AGroup) → g.Copyable → g.Good Cont.WF → g.deepCopy = g.rekey
  | .noval _ _ _, _, _ => rfl
  | .val i v c m, h, hg => by
    show AGroup.val i v.deepCopy c m = .val i v.rekey c m
    rw [Item.deepCopy_rekey v h hg]
theorem Tbl.deepCopy_rekey : (t : Tbl) → t.Copyable → t.Good Cont.WF → t.deepCopy = t.rekey
  | .mk c t a s n d, h, hg => by
    show Tbl.mk c.deepCopy t a s n d = .mk c.rekey t a s n d
    rw [Cont.deepCopy_rekey c h hg]
theorem Cont.deepCopy_rekey : (c : Cont) → c.Copyable → c.Good Cont.WF → c.deepCopy = c.rekey
  | .mk b m d p tk, h, hg => by
    show Cont.mk b.deepCopyEntries m (dictOfBody b) p tk = .mk (rekeyEntries b) m (dictOfBody b) p tk
    rw [deepCopyEntries_rekey b h hg.2]
theorem deepCopyEntries_rekey : (b : List Entry) → copyableEntries b → goodEntries Cont.WF b → b.deepCopyEntries = rekeyEntries b
  | [], _, _ => rfl
  | .mk k v :: r, h, hg => by
    show Entry.mk k v.deepCopy :: r.deepCopyEntries = .mk k v.rekey :: rekeyEntries r
    rw [Item.deepCopy_rekey v h.1 hg.1, deepCopyEntries_rekey r h.2 hg.2]
theorem deepCopyTables_rekey : (ts : List Tbl) → copyableTables ts → goodTables Cont.WF ts → ts.deepCopyTables = rekeyTables ts
  | [], _, _ => rfl
  | t :: r, h, hg => by
    show t.deepCopy :: r.deepCopyTables = t.rekey :: rekeyTables r
    rw [Tbl.deepCopy_rekey t h.1 hg.1, deepCopyTables_rekey r h.2 hg.2]
end

end Tomlkit
