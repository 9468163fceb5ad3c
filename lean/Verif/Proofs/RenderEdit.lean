import Verif.Proofs.DictRef
import Verif.Spec.EditText
/-!
# The text of a document around an edited table
-/
namespace Tomlkit
open Spec

/-- a body in its context -/
def bodyIn (ctx : Ctx) (b : List Entry) : Str := b.flatMap (renderIn ctx)

theorem bodyStr_flatMap (b : List Entry) : bodyStr b = bodyIn none b := by
  induction b with
  | nil => rfl
  | cons e r ih =>
    unfold bodyStr bodyIn
    rw [ih, List.flatMap_cons]; rfl

theorem tableBodyStr_flatMap (kd ia : Bool) (key : Str) (b : List Entry) :
    tableBodyStr kd ia key b = bodyIn (some (kd, ia, key)) b := by
  induction b with
  | nil => rfl
  | cons e r ih =>
    unfold tableBodyStr bodyIn
    rw [ih, List.flatMap_cons]; rfl

theorem asString_bodyIn (c : Cont) : c.asString = bodyIn none c.body := by
  cases c; exact bodyStr_flatMap _

theorem renderBody_bodyIn (kd ia : Bool) (key : Str) (c : Cont) :
    c.renderBody kd ia key = bodyIn (some (kd, ia, key)) c.body := by
  cases c; exact tableBodyStr_flatMap _ _ _ _

theorem tblRender_eq (key : SKey) (pfx : Option Str) (tb : Tbl) : tb.render key pfx =
    tableHeader key pfx tb ++ bodyIn (some (key.dotted, false, tableKeyText key pfx tb)) tb.cont.body := by
  cases tb
  unfold Tbl.render
  dsimp only
  rw [renderBody_bodyIn]; rfl

theorem renderAotElem_eq (key : Str) (tb : Tbl) : tb.renderAotElem key =
    aotHeader key tb.trivia ++ bodyIn (some (false, true, key)) tb.cont.body := by
  cases tb
  unfold Tbl.renderAotElem
  rw [renderBody_bodyIn]; rfl

theorem aotRender_flatMap (key : Str) (ts : List Tbl) : aotRender key ts = ts.flatMap fun t => t.renderAotElem key := by
  induction ts with
  | nil => rfl
  | cons t r ih => unfold aotRender; rw [ih, List.flatMap_cons]

/-- the header of a table with a new container is the same -/
structure HeadSame (key : SKey) (tb : Tbl) (c : Cont) : Prop where
  super : (tb.setCont c).isSuper = tb.isSuper
  plain : tb.isSuper = true → key.dotted = false → c.body.any (fun e => e.v.isPlain) = tb.cont.body.any (fun e => e.v.isPlain)
  size : hasNl tb.trivia.trail = true ∨ (decide (c.dict.length > 0) = decide (tb.cont.dict.length > 0))

theorem setCont_fields (tb : Tbl) (c : Cont) : (tb.setCont c).cont = c ∧ (tb.setCont c).trivia = tb.trivia ∧
    (tb.setCont c).isAot = tb.isAot ∧ (tb.setCont c).display = tb.display ∧ (tb.setCont c).superFlag = tb.superFlag := by
  cases tb; exact ⟨rfl, rfl, rfl, rfl, rfl⟩

theorem HeadSame.shows {key : SKey} {tb : Tbl} {c : Cont} (h : HeadSame key tb c) :
    showsHeader key (tb.setCont c) = showsHeader key tb := by
  unfold showsHeader
  rw [h.super, (setCont_fields tb c).1]
  by_cases hs : tb.isSuper = true
  · by_cases hd : key.dotted = true
    · simp [hd]
    · rw [h.plain hs (by simpa using hd)]
  · simp [hs]

theorem HeadSame.header {key : SKey} {tb : Tbl} {c : Cont} (h : HeadSame key tb c) (pfx : Option Str) :
    tableHeader key pfx (tb.setCont c) = tableHeader key pfx tb := by
  obtain ⟨h1, h2, h3, h4, _⟩ := setCont_fields tb c
  unfold tableHeader tableKeyText
  rw [h.shows, h1, h2, h3, h4]
  rcases h.size with hs | hs
  · rw [hs]; simp
  · have : (c.dict.length > 0) = (tb.cont.dict.length > 0) := by
      rw [decide_eq_decide] at hs
      exact propext hs
    simp only [this]

/-- all tables see the same header whatever their flags -/
structure Compat (c c' : Cont) : Prop where
  plain : c'.body.any (fun e => e.v.isPlain) = c.body.any (fun e => e.v.isPlain)
  dict : c'.dict = c.dict
  look : ∀ k, mapGet k c'.map = mapGet k c.map
  tables : ∀ i : Nat, (c'.body[i]?).map (fun e : Entry => e.v.isTableLike) = (c.body[i]?).map fun e : Entry => e.v.isTableLike

theorem Compat.head {tb : Tbl} {c : Cont} (h : Compat tb.cont c) (key : SKey) : HeadSame key tb c := by
  refine ⟨?_, fun _ _ => h.plain, Or.inr (by rw [h.dict])⟩
  cases tb with | mk c0 t a s n d =>
  unfold Tbl.isSuper
  simp only [Tbl.setCont, Tbl.superFlag_mk, Tbl.cont_mk] at *
  split
  · rfl
  · rw [h.dict]
    split
    · rw [h.look]
      split
      · rw [h.tables]
      · rfl
    · rfl

theorem any_set {b : List Entry} {i : Nat} {e e' : Entry} (hb : b[i]? = some e) (f : Entry → Bool) (he : f e' = f e) :
    (b.set i e').any f = b.any f := by
  have h1 : (b.set i e').map f = b.map f := map_set_same _ _ _ _ (by rw [hb]; simp [he])
  have h2 : ∀ l : List Entry, l.any f = (l.map f).any id := by
    intro l; rw [List.any_map]; rfl
  rw [h2, h1, ← h2]

theorem compat_write {c : Cont} {i : Nat} {e e' : Entry} (hb : c.body[i]? = some e) (hp : e'.v.isPlain = e.v.isPlain)
    (ht : e'.v.isTableLike = e.v.isTableLike) (p : Bool) (tk : List Str) :
    Compat c (.mk (c.body.set i e') c.map c.dict p tk) := by
  refine ⟨any_set hb _ hp, rfl, fun _ => rfl, ?_⟩
  intro j
  rw [Cont.body_mk, List.getElem?_set]
  by_cases hij : i = j
  · subst hij
    rw [if_pos rfl, if_pos (List.getElem?_eq_some_iff.1 hb).1, hb]
    simp [ht]
  · rw [if_neg hij]

theorem list_at {α : Type} {l : List α} {i : Nat} {a : α} (h : l[i]? = some a) :
    l = l.take i ++ a :: l.drop (i + 1) ∧ ∀ b, l.set i b = l.take i ++ b :: l.drop (i + 1) := by
  obtain ⟨hlt, rfl⟩ := List.getElem?_eq_some_iff.1 h
  refine ⟨?_, fun b => List.set_eq_take_append_cons_drop.trans (by rw [if_pos hlt])⟩
  rw [List.getElem_cons_drop, List.take_append_drop]

theorem flatMap_at {α : Type} {l : List α} {i : Nat} {a : α} (h : l[i]? = some a) (f : α → Str) :
    l.flatMap f = (l.take i).flatMap f ++ f a ++ (l.drop (i + 1)).flatMap f ∧
    ∀ b, (l.set i b).flatMap f = (l.take i).flatMap f ++ f b ++ (l.drop (i + 1)).flatMap f := by
  obtain ⟨h1, h2⟩ := list_at h
  refine ⟨?_, fun b => ?_⟩
  · conv => lhs; rw [h1]
    rw [List.flatMap_append, List.flatMap_cons, List.append_assoc]
  · rw [h2 b, List.flatMap_append, List.flatMap_cons, List.append_assoc]

/-- the header above the edited container stays -/
def Spec.Place.Kept : Spec.Place → Cont → Prop
  | .table key tb, c => HeadSame key tb c
  | _, _ => True

/-- the edited container stands in a fixed text -/
def Around (ctx : Ctx) (b b' : List Entry) (i i' : List Entry) : Prop :=
  ∃ ctxi pre post, bodyIn ctx b = pre ++ bodyIn ctxi i ++ post ∧ bodyIn ctx b' = pre ++ bodyIn ctxi i' ++ post

theorem Around.refl (ctx : Ctx) (b b' : List Entry) : Around ctx b b' b b' := ⟨ctx, [], [], by simp, by simp⟩

theorem around_table {ctx : Ctx} {b : List Entry} {i : Nat} {key : SKey} {tb : Tbl}
    (hb : b[i]? = some (.mk (some key) (.table tb))) {c' : Cont} (hh : HeadSame key tb c') {x x' : List Entry}
    (h : ∀ ctx', Around ctx' tb.cont.body c'.body x x') :
    Around ctx b (b.set i (.mk (some key) (.table (tb.setCont c')))) x x' := by
  obtain ⟨h1, h2⟩ := flatMap_at hb (renderIn ctx)
  have htp : ctx.tp (.mk (some key) (.table (tb.setCont c'))) = ctx.tp (.mk (some key) (.table tb)) := by
    unfold Ctx.tp
    rcases ctx with _ | ⟨kd, ia, k⟩
    · rfl
    · simp only [Entry.v_mk, Entry.key_mk, hh.super]
      try rfl
  have hk : ∀ pfx, tableKeyText key pfx (tb.setCont c') = tableKeyText key pfx tb := by
    intro pfx; unfold tableKeyText; rw [(setCont_fields tb c').2.2.2.1]
  obtain ⟨ctxi, pre, post, h3, h4⟩ := h (some (key.dotted, false, tableKeyText key (ctx.tp (.mk (some key) (.table tb))) tb))
  refine ⟨ctxi, (b.take i).flatMap (renderIn ctx) ++ tableHeader key (ctx.tp (.mk (some key) (.table tb))) tb ++ pre,
    post ++ (b.drop (i + 1)).flatMap (renderIn ctx), ?_, ?_⟩
  · unfold bodyIn at *
    rw [h1]
    have : renderIn ctx (.mk (some key) (.table tb)) = tb.render key (ctx.tp (.mk (some key) (.table tb))) := rfl
    rw [this, tblRender_eq]
    unfold bodyIn
    rw [h3]; simp [List.append_assoc]
  · unfold bodyIn at *
    rw [h2]
    have : renderIn ctx (.mk (some key) (.table (tb.setCont c'))) =
        (tb.setCont c').render key (ctx.tp (.mk (some key) (.table (tb.setCont c')))) := rfl
    rw [this, tblRender_eq, htp, hk, hh.header, (setCont_fields tb c').1]
    unfold bodyIn
    rw [h4]; simp [List.append_assoc]

theorem around_elem {ctx : Ctx} {b : List Entry} {i : Nat} {key : SKey} {ts : List Tbl} {t : Trivia} {nm : Option Str}
    {p : Bool} (hb : b[i]? = some (.mk (some key) (.aot ts t nm p))) {j : Nat} {tb : Tbl} (hj : ts[j]? = some tb)
    {c' : Cont} {x x' : List Entry} (h : ∀ ctx', Around ctx' tb.cont.body c'.body x x') :
    Around ctx b (b.set i (.mk (some key) (.aot (ts.set j (tb.setCont c')) t nm p))) x x' := by
  obtain ⟨h1, h2⟩ := flatMap_at hb (renderIn ctx)
  have hr : ∀ ts', renderIn ctx (.mk (some key) (.aot ts' t nm p)) =
      ts'.flatMap fun u => u.renderAotElem (withPrefix (ctx.tp (.mk (some key) (.aot ts t nm p))) key.orig) := by
    intro ts'
    rw [← aotRender_flatMap]
    unfold renderIn Ctx.tp
    rcases ctx with _ | ⟨kd, ia, k⟩ <;> rfl
  generalize withPrefix (ctx.tp (.mk (some key) (.aot ts t nm p))) key.orig = name at hr
  obtain ⟨h5, h6⟩ := flatMap_at hj fun u => u.renderAotElem name
  obtain ⟨ctxi, pre, post, h3, h4⟩ := h (some (false, true, name))
  refine ⟨ctxi, (b.take i).flatMap (renderIn ctx) ++ ((ts.take j).flatMap fun u => u.renderAotElem name) ++
    aotHeader name tb.trivia ++ pre,
    post ++ ((ts.drop (j + 1)).flatMap fun u => u.renderAotElem name) ++ (b.drop (i + 1)).flatMap (renderIn ctx), ?_, ?_⟩
  · unfold bodyIn at *
    rw [h1, hr, h5, renderAotElem_eq]
    unfold bodyIn
    rw [h3]; simp [List.append_assoc]
  · unfold bodyIn at *
    rw [h2, hr, h6, renderAotElem_eq, (setCont_fields tb c').1, (setCont_fields tb c').2.1]
    unfold bodyIn
    rw [h4]; simp [List.append_assoc]

theorem mapGet_key {c : Cont} (h : c.WF) {k : Str} {i : Nat} (hm : mapGet k c.map = some [i]) {key : Option SKey} {v : Item}
    (hb : c.body[i]? = some (.mk key v)) : ∃ sk, key = some sk ∧ sk.key = k := by
  obtain ⟨w, sk, hb', hk⟩ := (consistent_of_WF h).cached k _ hm i (List.mem_singleton.2 rfl)
  rw [hb] at hb'
  cases hb'
  exact ⟨sk, rfl, hk⟩

/-- an operation at the end of a path changes only the text of the container it is applied to -/
theorem around_path {op : Op} (path : List Step) : ∀ {x y : Place} {c' : Cont}, x.cont.Good Cont.WF →
    Cont.atPath op path x.holder x.cont = .ok c' → place path x = some y →
    ∃ ci', op.run y.holder y.cont = .ok ci' ∧ y.cont.Good Cont.WF ∧
      (y.Kept ci' → (∀ ctx, Around ctx x.cont.body c'.body y.cont.body ci'.body) ∧ x.Kept c') := by
  induction path with
  | nil =>
    intro x y c' hg hr hi
    cases hi
    exact ⟨c', hr, hg, fun hk => ⟨fun ctx => Around.refl _ _ _, hk⟩⟩
  | cons s r ih =>
    intro x y c' hg hr hi
    have hwf := ((Cont.good_iff _).1 hg).1
    rcases s with k | ⟨k, j⟩ <;> unfold Cont.atPath at hr <;> unfold place at hi
    · split at hi
      · rename_i i hm
        rw [hm] at hr
        dsimp only at hr
        split at hi
        · rename_i key tb hb
          rw [hb] at hr
          dsimp only at hr
          rcases hx : Cont.atPath op r (.table tb.trivia) tb.cont with e | c1 <;> rw [hx] at hr <;>
            simp only [Except.map] at hr <;> cases hr
          have hgt := good_at hg hb
          obtain ⟨sk, hsk0, hsk⟩ := mapGet_key hwf hm hb
          cases hsk0
          obtain ⟨ci', h1, h2, h3⟩ := ih (x := .table key tb) ((Tbl.good_iff _).1 hgt) hx hi
          refine ⟨ci', h1, h2, fun hk => ?_⟩
          obtain ⟨h4, h5⟩ := h3 hk
          refine ⟨fun ctx => around_table hb h5 h4, ?_⟩
          have hcomp := compat_write hb (e' := .mk (some key) (.table (tb.setCont c1))) rfl rfl x.cont.parsed
            x.cont.tableKeys
          rcases x with c | ⟨k0, tb0⟩ | tb0
          · trivial
          · exact hcomp.head _
          · trivial
        · cases hi
      · cases hi
    · split at hi
      · rename_i i hm
        rw [hm] at hr
        dsimp only at hr
        split at hi
        · rename_i key ts t nm p hb
          rw [hb] at hr
          dsimp only at hr
          split at hi
          · rename_i tb hj
            rw [hj] at hr
            dsimp only at hr
            rcases hx : Cont.atPath op r (.table tb.trivia) tb.cont with e | c1 <;> rw [hx] at hr <;>
              simp only [Except.map] at hr <;> cases hr
            have hgt := (Item.good_aot _ _ _ _).1 (good_at hg hb) tb (List.mem_of_getElem? hj)
            obtain ⟨sk, hsk0, hsk⟩ := mapGet_key hwf hm hb
            cases hsk0
            obtain ⟨ci', h1, h2, h3⟩ := ih (x := .elem tb) ((Tbl.good_iff _).1 hgt) hx hi
            refine ⟨ci', h1, h2, fun hk => ?_⟩
            obtain ⟨h4, h5⟩ := h3 hk
            refine ⟨fun ctx => around_elem hb hj h4, ?_⟩
            have hcomp := compat_write hb (e' := .mk (some key) (.aot (ts.set j (tb.setCont c1)) t nm p)) rfl rfl
              x.cont.parsed x.cont.tableKeys
            rcases x with c | ⟨k0, tb0⟩ | tb0
            · trivial
            · exact hcomp.head _
            · trivial
          · cases hi
        · cases hi
      · cases hi

theorem place_good (path : List Step) : ∀ {x y : Place}, x.cont.Good Cont.WF → place path x = some y →
    y.cont.Good Cont.WF := by
  induction path with
  | nil => intro x y hg hi; cases hi; exact hg
  | cons s r ih =>
    intro x y hg hi
    rcases s with k | ⟨k, j⟩ <;> unfold place at hi
    · split at hi
      · split at hi
        · rename_i hb
          exact ih (x := .table _ _) ((Tbl.good_iff _).1 (good_at hg hb)) hi
        · cases hi
      · cases hi
    · split at hi
      · split at hi
        · rename_i hb
          split at hi
          · rename_i hj
            exact ih (x := .elem _) ((Tbl.good_iff _).1 ((Item.good_aot _ _ _ _).1 (good_at hg hb) _ (List.mem_of_getElem? hj))) hi
          · cases hi
        · cases hi
      · cases hi

/-- an operation at the end of a path returns or raises as it does there -/
theorem atPath_place {op : Op} (path : List Step) : ∀ {x y : Place}, place path x = some y →
    (∀ e, op.run y.holder y.cont = .error e → Cont.atPath op path x.holder x.cont = .error e) ∧
    (∀ ci', op.run y.holder y.cont = .ok ci' → ∃ c', Cont.atPath op path x.holder x.cont = .ok c') := by
  induction path with
  | nil =>
    intro x y hi
    cases hi
    exact ⟨fun e h => h, fun ci h => ⟨ci, h⟩⟩
  | cons s r ih =>
    intro x y hi
    rcases s with k | ⟨k, j⟩ <;> unfold Cont.atPath <;> unfold place at hi
    · split at hi
      · rename_i i hm
        rw [hm]
        dsimp only
        split at hi
        · rename_i key tb hb
          rw [hb]
          dsimp only
          obtain ⟨h1, h2⟩ := ih (x := .table key tb) hi
          refine ⟨fun e he => ?_, fun ci he => ?_⟩
          · have := h1 e he
            have h3 : Cont.atPath op r (.table tb.trivia) tb.cont = .error e := this
            rw [h3]; rfl
          · obtain ⟨c', h3⟩ := h2 ci he
            have h3 : Cont.atPath op r (.table tb.trivia) tb.cont = .ok c' := h3
            rw [h3]; exact ⟨_, rfl⟩
        · cases hi
      · cases hi
    · split at hi
      · rename_i i hm
        rw [hm]
        dsimp only
        split at hi
        · rename_i key ts t nm p hb
          rw [hb]
          dsimp only
          split at hi
          · rename_i tb hj
            rw [hj]
            dsimp only
            obtain ⟨h1, h2⟩ := ih (x := .elem tb) hi
            refine ⟨fun e he => ?_, fun ci he => ?_⟩
            · have h3 : Cont.atPath op r (.table tb.trivia) tb.cont = .error e := h1 e he
              rw [h3]; rfl
            · obtain ⟨c', h3⟩ := h2 ci he
              have h3 : Cont.atPath op r (.table tb.trivia) tb.cont = .ok c' := h3
              rw [h3]; exact ⟨_, rfl⟩
          · cases hi
        · cases hi
      · cases hi

/-- the empty slots of a deletion are exactly the entries with that name -/
theorem nullAt_map {c : Cont} (h : c.WF) {k : Str} {is : List Nat} (hm : mapGet k c.map = some is) :
    nullAt is c.body = c.body.map fun e => if nameOf e = some k then Entry.nullEntry else e := by
  have hc := consistent_of_WF h
  apply List.ext_getElem?
  intro j
  rw [nullAt_get, List.getElem?_map]
  rcases hj : c.body[j]? with _ | ⟨key, v⟩
  · split <;> rfl
  · by_cases hin : j ∈ is
    · rw [if_pos hin]
      obtain ⟨v', sk, hb, hk⟩ := hc.cached k is hm j hin
      rw [hj] at hb; cases hb
      simp [nameOf, hk]
    · rw [if_neg hin]
      have : nameOf (.mk key v) ≠ some k := by
        intro hn
        rcases key with _ | sk
        · cases hn
        · have hk : sk.key = k := by simpa [nameOf] using hn
          obtain ⟨is', h1, h2⟩ := hc.reachable j k v ⟨sk, hj, hk⟩
          rw [hm] at h1; cases h1
          exact hin h2
      simp [this]

theorem flatMap_null {b : List Entry} {k : Str} (ctx : Ctx) :
    bodyIn ctx (b.map fun e => if nameOf e = some k then Entry.nullEntry else e) =
      (b.filter fun e => nameOf e != some k).flatMap (renderIn ctx) := by
  unfold bodyIn
  induction b with
  | nil => rfl
  | cons e r ih =>
    rw [List.map_cons, List.flatMap_cons, ih, List.filter_cons]
    by_cases hk : nameOf e = some k
    · simp only [hk, if_true, bne_self_eq_false, Bool.false_eq_true, if_false]
      have : renderIn ctx Entry.nullEntry = [] := by
        unfold renderIn Entry.nullEntry Entry.render
        rfl
      rw [this]; rfl
    · have : (nameOf e != some k) = true := by simpa using hk
      rw [if_neg hk, this]
      simp

theorem isSuper_none {tb : Tbl} (hs : tb.superFlag = none) (h : ∀ e ∈ tb.cont.body, e.v.isTableLike = false) :
    tb.isSuper = false := by
  unfold Tbl.isSuper
  rw [hs]
  dsimp only
  split
  · split
    · rename_i i _
      rcases hb : tb.cont.body[i]? with _ | e
      · rfl
      · simp [h e (List.mem_of_getElem? hb)]
    · rfl
  · rfl

theorem any_congr_mem {α : Type} {l : List α} {f g : α → Bool} (h : ∀ a ∈ l, f a = g a) : l.any f = l.any g := by
  induction l with
  | nil => rfl
  | cons a r ih =>
    rw [List.any_cons, List.any_cons, h a (List.mem_cons_self ..), ih fun a ha => h a (List.mem_cons_of_mem _ ha)]

/-- deletion keeps the header under the stated condition -/
theorem headSame_remove {key : SKey} {tb : Tbl} (h : tb.cont.WF) {k : Str} {is : List Nat}
    (hm : mapGet k tb.cont.map = some is) {c' : Cont} (hc : tb.cont.remove k = .ok c')
    (hk : KeepsHeader (.table key tb) k) : HeadSame key tb c' := by
  unfold Cont.remove at hc
  rw [hm] at hc
  cases hc
  rw [nullAt_map h hm]
  obtain ⟨hnl, hs⟩ := hk
  obtain ⟨c, t, a, s, n, d⟩ := tb
  simp only [Tbl.superFlag_mk, Tbl.cont_mk] at hs ⊢
  rcases hs with rfl | ⟨rfl, hs⟩ | ⟨rfl, hs⟩
  · refine ⟨rfl, ?_, Or.inl hnl⟩
    intro h0; cases h0
  · refine ⟨rfl, ?_, Or.inl hnl⟩
    intro _ hd
    simp only [Cont.body_mk, Tbl.cont_mk, List.any_map]
    rcases hs with hs | hs | ⟨e, he, h1, h2⟩
    · rw [hd] at hs; cases hs
    · apply any_congr_mem
      intro e he
      by_cases hn : nameOf e = some k
      · simp only [Function.comp, if_pos hn]
        rw [hs e he hn]; rfl
      · simp only [Function.comp, if_neg hn]
    · refine (List.any_eq_true.2 ⟨e, he, ?_⟩).trans (List.any_eq_true.2 ⟨e, he, h2⟩).symm
      simp [Function.comp, if_neg h1, h2]
  · have h1 : Tbl.isSuper (.mk c t a none n d) = false := isSuper_none rfl hs
    refine ⟨?_, ?_, Or.inl hnl⟩
    · rw [h1]
      refine isSuper_none rfl ?_
      intro e he
      simp only [Tbl.setCont, Tbl.cont_mk, Cont.body_mk, List.mem_map] at he
      obtain ⟨e0, he0, rfl⟩ := he
      split
      · rfl
      · exact hs e0 he0
    · intro h0; rw [h1] at h0; cases h0

end Tomlkit
