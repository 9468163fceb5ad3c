import Verif.Proofs.RenderEdit
/-!
# Replacing a value, in the text
-/
namespace Tomlkit
open Spec

theorem solid_append {s : Str} (h : Solid s) (p : Str) : Solid (p ++ s) := by
  obtain ⟨r, c, rfl, h1, h2⟩ := h
  exact ⟨p ++ r, c, by rw [List.append_assoc], h1, h2⟩

theorem rstripChars_solid {s : Str} (h : Solid s) (b : Str) (new : Bool) :
    rstripChars (if new then t!", " else t!",") (s ++ b) = s ++ rstripChars (if new then t!", " else t!",") b := by
  obtain ⟨r, c, rfl, h1, h2⟩ := h
  unfold rstripChars
  have hc : (if new then t!", " else t!",").contains c = false := by
    cases new <;> simp [h1, h2]
  generalize (if new then t!", " else t!",") = cs at hc
  rw [List.reverse_append, List.dropWhile_append]
  split
  · rename_i he
    rw [List.isEmpty_iff] at he
    have : ((r ++ [c]).reverse).dropWhile (fun c => cs.contains c) = (r ++ [c]).reverse := by
      rw [List.reverse_append, List.reverse_singleton, List.singleton_append]
      exact List.dropWhile_cons_of_neg (by simp only [hc]; decide)
    rw [this, he]
    simp
  · rw [List.reverse_append, List.reverse_reverse]

/-- a solid piece in the text built so far stays -/
theorem inlineLoop_buf (new : Bool) (last : Option Nat) (len : Nat) {a b : Str} (ha : Solid a) (hb : Solid b)
    (es : List Entry) : ∀ (i : Nat) (B : Str), ∃ X, inlineLoop new last len i (a ++ B) es = a ++ X ∧
      inlineLoop new last len i (b ++ B) es = b ++ X := by
  induction es with
  | nil => intro i B; exact ⟨B, rfl, rfl⟩
  | cons e r ih =>
    intro i B
    unfold inlineLoop
    rcases hk : e.key with _ | k
    · dsimp only
      split
      · rw [rstripChars_solid ha, rstripChars_solid hb, List.append_assoc, List.append_assoc]
        exact ih _ _
      · rw [List.append_assoc, List.append_assoc]
        exact ih _ _
    · dsimp only
      rcases last with _ | l
      · dsimp only
        rw [List.append_assoc, List.append_assoc]; exact ih _ _
      · dsimp only
        split
        · simp only [List.append_assoc]; exact ih _ _
        · rw [List.append_assoc, List.append_assoc]; exact ih _ _

theorem lastKeyIdx_eq (es : List Entry) : lastKeyIdx es =
    ((es.map fun e => e.key.isSome).zipIdx.reverse.find? fun p => p.1).map (·.2) := by
  unfold lastKeyIdx
  rw [List.zipIdx_map, ← List.map_reverse, List.find?_map, Option.map_map]
  rfl

theorem lastKeyIdx_set {b : List Entry} {i : Nat} {e e' : Entry} (hb : b[i]? = some e) (hk : e'.key = e.key) :
    lastKeyIdx (b.set i e') = lastKeyIdx b := by
  rw [lastKeyIdx_eq, lastKeyIdx_eq, map_set_same _ _ _ _ (by rw [hb]; simp [hk])]

theorem replaced_prefix {key : SKey} {o n s s' : Str} (h : ValueReplaced key o n s s') (a z : Str) :
    ValueReplaced key o n (a ++ s ++ z) (a ++ s' ++ z) := by
  obtain ⟨pre, dot, post, h0, rfl, rfl⟩ := h
  exact ⟨a ++ pre, dot, post ++ z, h0, by simp [List.append_assoc], by simp [List.append_assoc]⟩

/-- the text of an inline table -/
theorem inline_replaced {key : SKey} {o n : Str} (ho : Solid o) (hn : Solid n) {c c' : Cont} {i : Nat} {e e' : Entry}
    (hb : c.body[i]? = some e) (hc : c'.body = c.body.set i e') (hk : e'.key = e.key)
    (h : ValueReplaced key o n e.inlinePiece e'.inlinePiece) (new : Bool) :
    ValueReplaced key o n (c.inlineString new) (c'.inlineString new) := by
  have h1 : ∀ c : Cont, c.inlineString new = inlineLoop new (lastKeyIdx c.body) c.body.length 0 [123] c.body ++ [125] := by
    intro c; cases c; rfl
  rw [h1, h1, hc, lastKeyIdx_set hb hk, List.length_set]
  suffices hs : ∀ (es : List Entry) (i j : Nat) (buf : Str), es[i]? = some e →
      ValueReplaced key o n (inlineLoop new (lastKeyIdx c.body) c.body.length j buf es)
        (inlineLoop new (lastKeyIdx c.body) c.body.length j buf (es.set i e')) from
    replaced_prefix (hs c.body i 0 [123] hb) [] [125]
  generalize lastKeyIdx c.body = last
  generalize c.body.length = len
  intro es
  induction es with
  | nil => intro i j buf he; cases he
  | cons x r ih =>
    intro i j buf he
    rcases i with _ | i
    · cases he
      rw [List.set_cons_zero]
      obtain ⟨pre, dot, post, h0, h2, h3⟩ := h
      have key1 : ∀ (i : Nat) (pre B : Str), ValueReplaced key o n
          (inlineLoop new last len i (pre ++ key.orig ++ dot ++ key.sep ++ o ++ B) r)
          (inlineLoop new last len i (pre ++ key.orig ++ dot ++ key.sep ++ n ++ B) r) := by
        intro i pre B
        obtain ⟨X, h4, h5⟩ := inlineLoop_buf new last len
          (solid_append ho (pre ++ key.orig ++ dot ++ key.sep)) (solid_append hn (pre ++ key.orig ++ dot ++ key.sep)) r i B
        exact ⟨pre, dot, X, h0, h4, h5⟩
      have key2 : ∀ (i : Nat) (buf B : Str), ValueReplaced key o n
          (inlineLoop new last len i (buf ++ e.inlinePiece ++ B) r)
          (inlineLoop new last len i (buf ++ e'.inlinePiece ++ B) r) := by
        intro i buf B
        have := key1 i (buf ++ pre) (post ++ B)
        rw [h2, h3]
        simpa [List.append_assoc] using this
      unfold inlineLoop
      rw [hk]
      rcases hke : e.key with _ | k
      · dsimp only
        split
        · have := key2 (j + 1) (rstripChars (if new then t!", " else t!",") buf) []
          simpa using this
        · have := key2 (j + 1) buf []
          simpa using this
      · dsimp only
        rcases last with _ | l
        · dsimp only
          have := key2 (j + 1) buf []
          simpa using this
        · dsimp only
          split
          · exact key2 _ _ _
          · have := key2 (j + 1) buf []
            simpa using this
    · rw [List.set_cons_succ]
      unfold inlineLoop
      dsimp only
      split
      · exact ih _ _ _ (by simpa using he)
      · exact ih _ _ _ (by simpa using he)

/-- both ways a container is written -/
structure TextReplaced (key : SKey) (o n : Str) (c c' : Cont) : Prop where
  compat : Compat c c'
  body : ∀ ctx, ValueReplaced key o n (bodyIn ctx c.body) (bodyIn ctx c'.body)
  inline : ∀ new, ValueReplaced key o n (c.inlineString new) (c'.inlineString new)

theorem body_replaced {key : SKey} {o n : Str} {b : List Entry} {i : Nat} {e e' : Entry} (hb : b[i]? = some e) {ctx : Ctx}
    (h : ValueReplaced key o n (renderIn ctx e) (renderIn ctx e')) :
    ValueReplaced key o n (bodyIn ctx b) (bodyIn ctx (b.set i e')) := by
  obtain ⟨h1, h2⟩ := flatMap_at hb (renderIn ctx)
  unfold bodyIn
  rw [h1, h2]
  exact replaced_prefix h _ _

theorem renderIn_plain (ctx : Ctx) (key : SKey) {v : Item} (hv : v.isTableLike = false) :
    renderIn ctx (.mk (some key) v) = simpleHead key v.trivia ctx.sp ++ (v.asString ++ simpleTail v.trivia) := by
  unfold renderIn
  rcases v with _ | _ | _ | _ | _ | _ | _ | _ | _ | _ | _ | tb | ⟨ts, t, nm, p⟩ | _ <;>
    first | rfl | (simp [Item.isTableLike, Item.isTable, Item.isAoT] at hv)

/-- a line with a new value -/
theorem line_replaced (ctx : Ctx) (key : SKey) {v w : Item} (hv : v.isTableLike = false) (hw : w.isTableLike = false)
    (ht : w.trivia = v.trivia) : ValueReplaced key v.asString w.asString (renderIn ctx (.mk (some key) v))
      (renderIn ctx (.mk (some key) w)) := by
  rw [renderIn_plain ctx key hv, renderIn_plain ctx key hw, ht]
  unfold simpleHead
  rcases ctx.sp with _ | p
  · exact ⟨v.trivia.indent, [], simpleTail v.trivia, fun _ => rfl, by simp [withPrefix], by simp [withPrefix]⟩
  · exact ⟨v.trivia.indent ++ (p ++ [46]), [], simpleTail v.trivia, fun _ => rfl, by simp [withPrefix], by simp [withPrefix]⟩

theorem piece_replaced (key : SKey) {v w : Item} (ht : w.trivia = v.trivia) :
    ValueReplaced key v.asString w.asString (Entry.inlinePiece (.mk (some key) v)) (Entry.inlinePiece (.mk (some key) w)) := by
  unfold Entry.inlinePiece
  rw [ht]
  refine ⟨v.trivia.indent, if key.dotted then [46] else [], v.trivia.comment ++ dropNl v.trivia.trail, ?_, ?_, ?_⟩
  · intro h; rw [h]; rfl
  · simp [List.append_assoc]
  · simp [List.append_assoc]

theorem compat_set {c : Cont} {i : Nat} {e e' : Entry} {k : Str} (hb : c.body[i]? = some e) (hm : mapGet k c.map = some [i])
    (hp : e'.v.isPlain = e.v.isPlain) (ht : e'.v.isTableLike = e.v.isTableLike) (p : Bool) (tk : List Str) :
    Compat c (.mk (c.body.set i e') (mapSet k [i] (mapDel k c.map)) c.dict p tk) := by
  have := compat_write hb hp ht p tk
  refine ⟨this.plain, rfl, ?_, this.tables⟩
  intro k'
  rw [Cont.map_mk, mapGet_mapSet]
  by_cases hk : k = k'
  · rw [if_pos hk, ← hk, hm]
  · rw [if_neg hk, mapGet_mapDel, if_neg hk]

theorem retrivia_value {v old : Item} (hv : IsValue v) : retrivia v old =
    v.setTrivia { old.trivia with comment := old.trivia.comment, commentWs := old.trivia.commentWs } := by
  obtain ⟨h1, h2, h3, h4, h5⟩ := hv
  have ha : v.isAoT = false := by
    revert h1; unfold Item.isTableLike; cases v.isAoT <;> simp
  unfold retrivia copyTrivia
  rw [h2, ha, h4, h5]
  rfl

theorem setTrivia_trivia {v : Item} (h : v.isWhitespace = false) (t : Trivia) : (v.setTrivia t).trivia = t := by
  rcases v with _ | _ | _ | _ | _ | _ | _ | _ | _ | _ | _ | ⟨c, t, a, s, n, d⟩ | ⟨ts, t, nm, p⟩ | _ <;>
    first | rfl | (simp [Item.isWhitespace] at h)

theorem textAt_setTrivia {v old : Item} (hv : IsValue v) : (v.setTrivia old.trivia).asString = textAt v old := by
  obtain ⟨h1, h2, h3, h4, h5⟩ := hv
  rcases v with _ | _ | _ | _ | _ | _ | _ | _ | _ | ⟨gs, t, ml⟩ | _ | ⟨c, t, a, s, n, d⟩ | ⟨ts, t, nm, p⟩ | _ <;>
    first | rfl | (simp [Item.isTableLike, Item.isTable, Item.isAoT] at h1; done) |
      (simp [Item.isComment] at h3; done) | skip
  unfold textAt
  dsimp only [Item.setTrivia]
  cases ml
  · rfl
  · simp only [if_true]
    unfold Item.asString
    rfl

/-- a changed value anywhere below an entry changes the text of the container in the same way -/
theorem entry_replaced {key : SKey} {o n : Str} (ho : Solid o) (hn : Solid n) {c : Cont} {i : Nat} {e e' : Entry}
    (hb : c.body[i]? = some e) (hk : e'.key = e.key) (hp : e'.v.isPlain = e.v.isPlain)
    (ht : e'.v.isTableLike = e.v.isTableLike) (h1 : ∀ ctx, ValueReplaced key o n (renderIn ctx e) (renderIn ctx e'))
    (h2 : ValueReplaced key o n e.inlinePiece e'.inlinePiece) :
    TextReplaced key o n c (.mk (c.body.set i e') c.map c.dict c.parsed c.tableKeys) :=
  ⟨compat_write hb hp ht _ _, fun ctx => body_replaced hb (h1 ctx), fun new => inline_replaced ho hn hb rfl hk h2 new⟩

theorem piece_of_text {key sk : SKey} {o n : Str} {v w : Item} (ht : w.trivia = v.trivia)
    (h : ValueReplaced key o n v.asString w.asString) :
    ValueReplaced key o n (Entry.inlinePiece (.mk (some sk) v)) (Entry.inlinePiece (.mk (some sk) w)) := by
  unfold Entry.inlinePiece
  rw [ht]
  have := replaced_prefix h (v.trivia.indent ++ (sk.orig ++ ((if sk.dotted then [46] else []) ++ sk.sep)))
    (v.trivia.comment ++ dropNl v.trivia.trail)
  simpa [List.append_assoc] using this

theorem table_asString (tb : Tbl) : (Item.table tb).asString = bodyIn none tb.cont.body := by
  cases tb; exact asString_bodyIn _

theorem aotStr_flatMap (ts : List Tbl) : aotStr ts = ts.flatMap fun t => (Item.table t).asString := by
  induction ts with
  | nil => rfl
  | cons t r ih => unfold aotStr; rw [ih, List.flatMap_cons]; rfl

theorem replaced_table {key : SKey} {o n : Str} (ho : Solid o) (hn : Solid n) {c : Cont} {i : Nat} {sk : SKey} {tb : Tbl}
    (hb : c.body[i]? = some (.mk (some sk) (.table tb))) {c1 : Cont} (h : TextReplaced key o n tb.cont c1) :
    TextReplaced key o n c (.mk (c.body.set i (.mk (some sk) (.table (tb.setCont c1)))) c.map c.dict c.parsed c.tableKeys) := by
  have hh := h.compat.head sk
  refine entry_replaced ho hn hb rfl rfl rfl (fun ctx => ?_) ?_
  · have htp : ctx.tp (.mk (some sk) (.table (tb.setCont c1))) = ctx.tp (.mk (some sk) (.table tb)) := by
      unfold Ctx.tp
      rcases ctx with _ | ⟨kd, ia, k⟩
      · rfl
      · simp only [Entry.v_mk, Entry.key_mk, hh.super]
        try rfl
    have hk : ∀ pfx, tableKeyText sk pfx (tb.setCont c1) = tableKeyText sk pfx tb := by
      intro pfx; unfold tableKeyText; rw [(setCont_fields tb c1).2.2.2.1]
    have e1 : renderIn ctx (.mk (some sk) (.table tb)) = tb.render sk (ctx.tp (.mk (some sk) (.table tb))) := rfl
    have e2 : renderIn ctx (.mk (some sk) (.table (tb.setCont c1))) =
        (tb.setCont c1).render sk (ctx.tp (.mk (some sk) (.table (tb.setCont c1)))) := rfl
    rw [e1, e2, tblRender_eq, tblRender_eq, htp, hk, hh.header, (setCont_fields tb c1).1]
    have := replaced_prefix (h.body (some (sk.dotted, false, tableKeyText sk (ctx.tp (.mk (some sk) (.table tb))) tb)))
      (tableHeader sk (ctx.tp (.mk (some sk) (.table tb))) tb) []
    simpa using this
  · refine piece_of_text (by show (tb.setCont c1).trivia = _; exact (setCont_fields tb c1).2.1) ?_
    rw [table_asString, table_asString, (setCont_fields tb c1).1]
    exact h.body none

theorem replaced_inlineItem {key : SKey} {o n : Str} (ho : Solid o) (hn : Solid n) {c : Cont} {i : Nat} {sk : SKey}
    {ci : Cont} {t : Trivia} {new : Bool} (hb : c.body[i]? = some (.mk (some sk) (.inline ci t new))) {c1 : Cont}
    (h : TextReplaced key o n ci c1) :
    TextReplaced key o n c (.mk (c.body.set i (.mk (some sk) (.inline c1 t new))) c.map c.dict c.parsed c.tableKeys) := by
  refine entry_replaced ho hn hb rfl rfl rfl (fun ctx => ?_) ?_
  · rw [renderIn_plain ctx sk rfl, renderIn_plain ctx sk rfl]
    have := replaced_prefix (h.inline new) (simpleHead sk t ctx.sp) (simpleTail t)
    rw [List.append_assoc, List.append_assoc] at this
    exact this
  · exact piece_of_text rfl (h.inline new)

theorem replaced_elem {key : SKey} {o n : Str} (ho : Solid o) (hn : Solid n) {c : Cont} {i : Nat} {sk : SKey}
    {ts : List Tbl} {t : Trivia} {nm : Option Str} {p : Bool}
    (hb : c.body[i]? = some (.mk (some sk) (.aot ts t nm p))) {j : Nat} {tb : Tbl} (hj : ts[j]? = some tb) {c1 : Cont}
    (h : TextReplaced key o n tb.cont c1) :
    TextReplaced key o n c (.mk (c.body.set i (.mk (some sk) (.aot (ts.set j (tb.setCont c1)) t nm p))) c.map c.dict c.parsed
      c.tableKeys) := by
  refine entry_replaced ho hn hb rfl rfl rfl (fun ctx => ?_) ?_
  · have hr : ∀ ts', renderIn ctx (.mk (some sk) (.aot ts' t nm p)) =
        ts'.flatMap fun u => u.renderAotElem (withPrefix (ctx.tp (.mk (some sk) (.aot ts t nm p))) sk.orig) := by
      intro ts'
      rw [← aotRender_flatMap]
      unfold renderIn Ctx.tp
      rcases ctx with _ | ⟨kd, ia, k⟩ <;> rfl
    generalize withPrefix (ctx.tp (.mk (some sk) (.aot ts t nm p))) sk.orig = name at hr
    obtain ⟨h5, h6⟩ := flatMap_at hj fun u => u.renderAotElem name
    rw [hr, hr, h5, h6, renderAotElem_eq, renderAotElem_eq, (setCont_fields tb c1).1, (setCont_fields tb c1).2.1]
    have := replaced_prefix (h.body (some (false, true, name))) (aotHeader name tb.trivia) []
    rw [List.append_nil, List.append_nil] at this
    exact replaced_prefix this _ _
  · refine piece_of_text rfl ?_
    show ValueReplaced key o n (aotStr ts) (aotStr (ts.set j (tb.setCont c1)))
    obtain ⟨h5, h6⟩ := flatMap_at hj fun u => (Item.table u).asString
    rw [aotStr_flatMap, aotStr_flatMap, h5, h6, table_asString, table_asString, (setCont_fields tb c1).1]
    exact replaced_prefix (h.body none) _ _

/-- assignment to a key with a value, in a document, table or inline table -/
theorem run_set_value {h : Holder} {c : Cont} {k : Str} {i : Nat} {key : SKey} {old : Item} (hm : mapGet k c.map = some [i])
    (hb : c.body[i]? = some (.mk (some key) old)) (hk : key.key = k) (hp : old.isTableLike = false) {v : Item}
    (hv : IsValue v) : (Op.set k v).run h c = .ok (.mk (c.body.set i (.mk (some key) (v.setTrivia old.trivia)))
      (mapSet k [i] (mapDel k c.map)) c.dict c.parsed c.tableKeys) := by
  have base : ∀ v, IsValue v → c.setItem k v = .ok (.mk (c.body.set i (.mk (some key) (v.setTrivia old.trivia)))
      (mapSet k [i] (mapDel k c.map)) c.dict c.parsed c.tableKeys) := by
    intro v hv
    unfold Cont.setItem
    rw [fuelFor, has_single hm]
    dsimp only
    rw [hm]
    dsimp only
    rw [replaceAt_plain hb hk hp hv.1, retrivia_value hv]
  have ind : ∀ v ind, IsValue v → c.setItemIndented ind k v = .ok (.mk (c.body.set i (.mk (some key) (v.setTrivia old.trivia)))
      (mapSet k [i] (mapDel k c.map)) c.dict c.parsed c.tableKeys) := by
    intro v ind hv
    unfold Cont.setItemIndented
    rw [fuelFor, has_single hm]
    dsimp only
    rw [base v hv]
    simp only [Bool.true_or, if_true]
  rcases h with _ | t | ⟨t, new⟩
  · exact base v hv
  · exact ind v _ hv
  · show inlineSetItem c t k v = _
    unfold inlineSetItem
    obtain ⟨h1, h2, h3, h4, h5⟩ := hv
    have hs : v.setTrivia { v.trivia with comment := [] } = v := by
      rw [← h4]
      rcases v with _ | _ | _ | _ | _ | _ | _ | _ | _ | _ | _ | ⟨c, t, a, s, n, d⟩ | ⟨ts, t, nm, p⟩ | _ <;> rfl
    rw [h2]
    simp only [Bool.false_eq_true, if_false]
    rw [hs]
    exact ind v _ ⟨h1, h2, h3, h4, h5⟩

theorem isPlain_value {v : Item} (hv : v.isTableLike = false) (h2 : v.isWhitespace = false) (h3 : v.isNull = false) :
    v.isPlain = true := by
  unfold Item.isTableLike at hv
  unfold Item.isPlain
  rw [h2, h3]
  revert hv
  cases v.isTable <;> cases v.isAoT <;> simp

theorem isNull_setTrivia (v : Item) (t : Trivia) : (v.setTrivia t).isNull = v.isNull := by
  cases v <;> rfl
theorem isWhitespace_setTrivia (v : Item) (t : Trivia) : (v.setTrivia t).isWhitespace = v.isWhitespace := by
  cases v <;> rfl

/-- an assignment anywhere in a document -/
theorem set_value_path {k : Str} {v : Item} (hv : IsValue v) {key : SKey} {old : Item} (hold : old.isTableLike = false)
    (hpl : old.isPlain = v.isPlain) (ho : Solid old.asString) (hn : Solid (textAt v old)) (path : List Step) :
    ∀ {h : Holder} {c : Cont}, c.Good Cont.WF → valueAt path c k = some (key, old) →
    ∃ c', Cont.atPath (.set k v) path h c = .ok c' ∧ TextReplaced key old.asString (textAt v old) c c' ∧
      valueAt path c' k = some (key, v.setTrivia old.trivia) := by
  induction path with
  | nil =>
    intro h c hg hf
    have hwf := ((Cont.good_iff _).1 hg).1
    unfold valueAt at hf
    rcases hm : mapGet k c.map with _ | is
    · rw [hm] at hf; cases hf
    rcases is with _ | ⟨i, _ | ⟨_, _⟩⟩ <;> rw [hm] at hf <;> try (cases hf; done)
    dsimp only at hf
    rcases hb : c.body[i]? with _ | ⟨_ | sk, w⟩ <;> rw [hb] at hf <;> dsimp only at hf <;> try (cases hf; done)
    cases hf
    obtain ⟨_, h1, hk⟩ := mapGet_key hwf hm hb
    cases h1
    have hlt := (List.getElem?_eq_some_iff.1 hb).1
    have htr : (v.setTrivia old.trivia).trivia = old.trivia := setTrivia_trivia hv.2.1 _
    have htl : (v.setTrivia old.trivia).isTableLike = false := by rw [isTableLike_setTrivia]; exact hv.1
    refine ⟨_, run_set_value hm hb hk hold hv, ⟨?_, ?_, ?_⟩, ?_⟩
    · refine compat_set hb hm ?_ ?_ _ _
      · show (v.setTrivia old.trivia).isPlain = old.isPlain
        rw [hpl]
        rcases v with _ | _ | _ | _ | _ | _ | _ | _ | _ | _ | _ | ⟨c, t, a, s, n, d⟩ | ⟨ts, t, nm, p⟩ | _ <;> rfl
      · show (v.setTrivia old.trivia).isTableLike = old.isTableLike
        rw [htl, hold]
    · intro ctx
      refine body_replaced hb ?_
      have := line_replaced ctx key hold htl htr
      rwa [textAt_setTrivia hv] at this
    · intro new
      refine inline_replaced (e' := .mk (some key) (v.setTrivia old.trivia)) ho hn hb rfl rfl ?_ new
      have := piece_replaced key htr
      rwa [textAt_setTrivia hv] at this
    · unfold valueAt
      rw [Cont.map_mk, mapGet_mapSet, if_pos rfl]
      dsimp only
      rw [Cont.body_mk, List.getElem?_set, if_pos rfl, if_pos hlt]
  | cons s r ih =>
    intro h c hg hf
    have hwf := ((Cont.good_iff _).1 hg).1
    rcases s with s | ⟨s, j⟩ <;> unfold valueAt at hf <;> unfold Cont.atPath
    · rcases hm : mapGet s c.map with _ | is
      · rw [hm] at hf; cases hf
      rcases is with _ | ⟨i, _ | ⟨_, _⟩⟩ <;> rw [hm] at hf <;> try (cases hf; done)
      dsimp only at hf ⊢
      rcases hb : c.body[i]? with _ | ⟨sk, w⟩ <;> rw [hb] at hf <;> try dsimp only at hf ⊢
      · cases hf
      obtain ⟨sk, rfl, hk⟩ := mapGet_key hwf hm hb
      have hlt := (List.getElem?_eq_some_iff.1 hb).1
      have hgt := good_at hg hb
      rcases w with _ | _ | _ | _ | _ | _ | _ | _ | _ | _ | ⟨ci, t, new⟩ | tb | ⟨ts, t, nm, p⟩ | _ <;> dsimp only at hf ⊢ <;>
        try (cases hf; done)
      · obtain ⟨c1, h1, h2, h3⟩ := ih (h := .inline t new) ((Item.good_inline _ _ _).1 hgt) hf
        rw [h1]
        refine ⟨_, rfl, replaced_inlineItem ho hn hb h2, ?_⟩
        unfold valueAt
        rw [Cont.map_mk, hm]
        dsimp only
        rw [Cont.body_mk, List.getElem?_set, if_pos rfl, if_pos hlt]
        exact h3
      · obtain ⟨c1, h1, h2, h3⟩ := ih (h := .table tb.trivia) ((Tbl.good_iff _).1 hgt) hf
        rw [h1]
        refine ⟨_, rfl, replaced_table ho hn hb h2, ?_⟩
        unfold valueAt
        rw [Cont.map_mk, hm]
        dsimp only
        rw [Cont.body_mk, List.getElem?_set, if_pos rfl, if_pos hlt]
        dsimp only
        rw [(setCont_fields tb c1).1]
        exact h3
    · rcases hm : mapGet s c.map with _ | is
      · rw [hm] at hf; cases hf
      rcases is with _ | ⟨i, _ | ⟨_, _⟩⟩ <;> rw [hm] at hf <;> try (cases hf; done)
      dsimp only at hf ⊢
      rcases hb : c.body[i]? with _ | ⟨sk, w⟩ <;> rw [hb] at hf <;> try dsimp only at hf ⊢
      · cases hf
      obtain ⟨sk, rfl, hk⟩ := mapGet_key hwf hm hb
      have hlt := (List.getElem?_eq_some_iff.1 hb).1
      have hgt := good_at hg hb
      rcases w with _ | _ | _ | _ | _ | _ | _ | _ | _ | _ | ⟨ci, t, new⟩ | tb | ⟨ts, t, nm, p⟩ | _ <;> dsimp only at hf ⊢ <;>
        try (cases hf; done)
      rcases hj : ts[j]? with _ | tb <;> rw [hj] at hf <;> dsimp only at hf ⊢
      · cases hf
      have hgt := (Item.good_aot _ _ _ _).1 hgt tb (List.mem_of_getElem? hj)
      obtain ⟨c1, h1, h2, h3⟩ := ih (h := .table tb.trivia) ((Tbl.good_iff _).1 hgt) hf
      have hjl := (List.getElem?_eq_some_iff.1 hj).1
      rw [h1]
      refine ⟨_, rfl, replaced_elem ho hn hb hj h2, ?_⟩
      unfold valueAt
      rw [Cont.map_mk, hm]
      dsimp only
      rw [Cont.body_mk, List.getElem?_set, if_pos rfl, if_pos hlt]
      dsimp only
      rw [List.getElem?_set, if_pos rfl, if_pos hjl]
      dsimp only
      rw [(setCont_fields tb c1).1]
      exact h3

end Tomlkit
