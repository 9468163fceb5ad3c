import Verif.Proofs.DocReads
import Verif.Proofs.LitBuild
import Verif.Spec.Readable
/-!
# The text of converted mappings
-/
namespace Tomlkit
open _root_.Spec Tomlkit.Spec

/-- only newlines -/
def Nls (b : Str) : Prop := ∀ x ∈ b, x = 10

theorem Nls.append {a b : Str} (h1 : Nls a) (h2 : Nls b) : Nls (a ++ b) := fun x hx => by
  rcases List.mem_append.1 hx with h | h
  · exact h1 x h
  · exact h2 x h

/-- at the end, or at a header -/
def AtHeader (t : Str) : Prop := t = [] ∨ ∃ r, t = 91 :: r

theorem lines_nls {tail : Str} {L : List (List Str × PyVal)} {text : Str} (h : Lines text tail L) : ∀ {b : Str}, Nls b → Lines (b ++ text) tail L
  | [], _ => h
  | x :: b, hb => by
    have hx : x = 10 := hb x (by simp)
    subst hx
    exact Lines.blank (s := []) (nl := [10]) (fun c hc => by cases hc) (.lf _) (by simp) (lines_nls h fun y hy => hb y (by simp [hy]))

/-- the text of some entries -/
def entsStr (pfx : Option Str) (es : List Entry) : Str := es.flatMap (Entry.render pfx none)

theorem entsStr_append (pfx : Option Str) (a b : List Entry) : entsStr pfx (a ++ b) = entsStr pfx a ++ entsStr pfx b := by
  unfold entsStr; rw [List.flatMap_append]

theorem bodyStr_ents (es : List Entry) : bodyStr es = entsStr none es := by
  induction es with
  | nil => rfl
  | cons e r ih => unfold bodyStr; rw [ih]; rfl

theorem tableBodyStr_ents (inAot : Bool) (key : Str) (es : List Entry) (h : ∀ e ∈ es, isDottedKey e.key = false) :
    tableBodyStr false inAot key es = entsStr (some key) es := by
  induction es with
  | nil => rfl
  | cons e r ih =>
    unfold tableBodyStr
    rw [ih fun x hx => h x (by simp [hx])]
    have he := h e (by simp)
    rcases e with ⟨k, v⟩
    simp only [Entry.key] at he
    rcases v with _ | _ | _ | _ | _ | _ | _ | _ | _ | _ | _ | tb | ⟨ts, t, nm, p⟩ | _ <;> simp [Entry.key, Entry.v, he, entsStr]

/-- the key/value lines of a converted dict -/
inductive LineEnts : List Entry → List PyPair → Prop
  | nil : LineEnts [] []
  | cons {r : List Entry} {k : Str} {w : PyVal} {v : Item} {l : List PyPair} (he : Fresh False w v) (ht : v.trivia.trail = [10]) (h : LineEnts r l) :
      LineEnts (.mk (some (mkKey k)) v :: r) (.mk k w :: l)

theorem LineEnts.append {a b : List Entry} {l m : List PyPair} (h1 : LineEnts a l) (h2 : LineEnts b m) : LineEnts (a ++ b) (l ++ m) := by
  induction h1 with
  | nil => exact h2
  | cons he ht _ ih => exact .cons he ht ih

theorem LineEnts.modify {es : List Entry} {l : List PyPair} (h : LineEnts es l) : ∀ n, addTrailNl n es = es := by
  induction h with
  | nil => intro n; unfold addTrailNl; simp
  | @cons r k w v l he ht h ih =>
    intro n
    unfold addTrailNl at ih ⊢
    cases n with
    | zero =>
      simp [ht, Entry.v, hasNl]
    | succ n =>
      rw [List.modify_succ_cons, ih n]

theorem LineEnts.closeLine {es : List Entry} {l : List PyPair} (h : LineEnts es l) : closeLine es = es := h.modify _

theorem simple_render {v : Item} (h : v.isTableLike = false) (k : SKey) (tp sp : Option Str) :
    Entry.render tp sp (.mk (some k) v) = simpleHead k v.trivia sp ++ (v.asString ++ simpleTail v.trivia) := by
  rcases v with _ | _ | _ | _ | _ | _ | _ | _ | _ | _ | _ | tb | ⟨ts, t, nm, p⟩ | _ <;>
    first | (simp [Item.isTableLike, Item.isTable, Item.isAoT] at h; done) | (unfold Entry.render; rfl)

theorem LineEnts.lines {es : List Entry} {l : List PyPair} (h : LineEnts es l) (pfx : Option Str) {b tail : Str}
    (hb : Nls b) (ht : AtHeader tail) : Lines (entsStr pfx es ++ (b ++ tail)) tail (flatPairs l) := by
  induction h with
  | nil => exact lines_nls (.stop ht) hb
  | @cons r k w v l he htr h ih =>
    obtain ⟨_, b1, sp, hsep, hK, hsp⟩ := keySep_mkKey k
    rw [mkKey_key] at hK
    have hline := Lines.kv (ind := []) (K := (mkKey k).orig ++ b1) (sp := sp) (txt := v.asString) (b := []) (cm := []) (nl := [10])
      (fun c hc => by cases hc) hK.path hsp he.is.reads Spaces.nil cmt_nil (.lf _) ih
    have e : entsStr pfx (.mk (some (mkKey k)) v :: r) ++ (b ++ tail) =
        [] ++ ((mkKey k).orig ++ b1 ++ 61 :: (sp ++ (v.asString ++ ([] ++ ([] ++ ([10] ++ (entsStr pfx r ++ (b ++ tail)))))))) := by
      show (Entry.render pfx none (.mk (some (mkKey k)) v) ++ entsStr pfx r) ++ (b ++ tail) = _
      rw [simple_render he.lit.kind.2.2]
      unfold simpleHead simpleTail withPrefix
      rw [he.triv.indent, he.triv.cws, he.triv.comment, htr, hsep]
      simp
    rw [e]
    exact hline

/-! ## Tables -/

/-- the text of a path -/
def pathStr (p : List Str) : Str := joinDot (p.map fun k => (mkKey k).orig)

/-- the prefix of the headers below a path -/
def pfxOf (p : List Str) : Option Str := if p = [] then none else some (pathStr p)

theorem joinDot_append (a : List Str) (s : Str) (h : a ≠ []) : joinDot (a ++ [s]) = joinDot a ++ 46 :: s := by
  induction a with
  | nil => exact absurd rfl h
  | cons x r ih =>
    rcases r with _ | ⟨y, r⟩
    · rfl
    · have e : ∀ t : List Str, joinDot (x :: y :: t) = x ++ 46 :: joinDot (y :: t) := fun _ => rfl
      rw [List.cons_append, List.cons_append, e, e, ← List.cons_append, ih (by simp)]
      simp

theorem pathStr_snoc (p : List Str) (k : Str) : pathStr (p ++ [k]) = withPrefix (pfxOf p) (mkKey k).orig := by
  unfold pathStr pfxOf withPrefix
  by_cases hp : p = []
  · subst hp; rfl
  · rw [if_neg hp, List.map_append, List.map_cons, List.map_nil, joinDot_append _ _ (by simpa using hp)]
    rfl

theorem pfxOf_snoc (p : List Str) (k : Str) : pfxOf (p ++ [k]) = some (pathStr (p ++ [k])) := by
  unfold pfxOf; rw [if_neg (by simp)]

/-- what is avoided at a place: `av` is the confusing name, `q` the implicit tables above -/
structure Avoid (av : Option Str) (p q : List Str) (k : Str) (w : PyVal) : Prop where
  inside : ∀ a, av = some a → NoSuchItem a w
  here : q = [] → av = some k → ∀ d, w = .dict d → ¬ OnlyArrays w
  below : ∀ y, q.head? = some y → av = some y → ¬ OnlyArrays w
  top : p ++ q = [] → ∀ x r, w = .list (x :: r) → ∀ y ∈ r, NoSuchItem k y

/-- The text of an entry that is a table or an array of tables, in front of the tables that follow. -/
def SubTxt (k : Str) (i : Item) (w : PyVal) : Prop :=
  ∀ (av : Option Str) (p q : List Str) (b t1 tail : Str) (l : List PyPair), Nls b → AtHeader t1 → Txt .subs av p q t1 tail (.dict l) →
    k ∉ l.map PyPair.key → Avoid av p q k w →
    ∃ b1 text, Entry.render (pfxOf (p ++ q)) none (.mk (some (mkKey k)) i) ++ (b ++ t1) = b1 ++ text ∧ Nls b1 ∧ AtHeader text ∧
      Txt .subs av p q text tail (.dict (.mk k w :: l))

inductive SubEnts : List Entry → List PyPair → Prop
  | nil : SubEnts [] []
  | cons {r : List Entry} {k : Str} {w : PyVal} {v : Item} {l : List PyPair} (he : SubTxt k v w) (h : SubEnts r l) :
      SubEnts (.mk (some (mkKey k)) v :: r) (.mk k w :: l)

theorem SubEnts.append {a b : List Entry} {l m : List PyPair} (h1 : SubEnts a l) (h2 : SubEnts b m) : SubEnts (a ++ b) (l ++ m) := by
  induction h1 with
  | nil => exact h2
  | cons he _ ih => exact .cons he ih

theorem SubEnts.txt {es : List Entry} {l : List PyPair} (h : SubEnts es l) (hd : (l.map PyPair.key).Nodup) (av : Option Str) (p q : List Str)
    {b tail : Str} (hb : Nls b) (ht : AtHeader tail) (ha : ∀ k w, .mk k w ∈ l → Avoid av p q k w) :
    ∃ b1 text, entsStr (pfxOf (p ++ q)) es ++ (b ++ tail) = b1 ++ text ∧ Nls b1 ∧ AtHeader text ∧ Txt .subs av p q text tail (.dict l) := by
  induction h with
  | nil => exact ⟨b, tail, rfl, hb, ht, .none⟩
  | @cons r k w v l he h ih =>
    rw [List.map_cons, List.nodup_cons] at hd
    obtain ⟨b1, t1, e1, e2, e3, e4⟩ := ih hd.2 fun k w hm => ha k w (by simp [hm])
    obtain ⟨b2, t2, f1, f2, f3, f4⟩ := he av p q b1 t1 tail l e2 e3 e4 hd.1 (ha k w (by simp))
    refine ⟨b2, t2, ?_, f2, f3, f4⟩
    rw [← f1, ← e1]
    show (Entry.render (pfxOf (p ++ q)) none (.mk (some (mkKey k)) v) ++ entsStr (pfxOf (p ++ q)) r) ++ (b ++ tail) = _
    rw [List.append_assoc]

/-- a converted table -/
structure TblTxt (tb : Tbl) (l : List PyPair) : Prop where
  flag : tb.superFlag = none
  display : tb.display = none
  cws : tb.trivia.commentWs = []
  comment : tb.trivia.comment = []
  trail : tb.trivia.trail = [10]
  indent : Nls tb.trivia.indent
  inval : tb.invalidate = tb
  ex : ∃ ps ts l1 l2, l = l1 ++ l2 ∧ Built tb.cont ps ts ∧ LineEnts ps l1 ∧ SubEnts ts l2
  count : tb.cont.dict.length = tb.cont.body.length
  once : (l.map PyPair.key).Nodup

theorem noSuch_dict {a : Str} {l : List PyPair} (h : NoSuchItem a (.dict l)) : (∀ d, PyPair.mk a (.dict d) ∈ l → ¬ OnlyArrays (.dict d)) ∧
    ∀ k w, PyPair.mk k w ∈ l → NoSuchItem a w := by
  unfold NoSuchItem at h ⊢
  rw [Throughout.eq_def] at h
  refine ⟨h.1 l rfl, ?_⟩
  have h2 := h.2
  clear h
  induction l with
  | nil => intro k w hm; cases hm
  | cons x r ih =>
    unfold ThroughoutIn at h2
    intro k w hm
    rcases List.mem_cons.1 hm with rfl | hm
    · have := h2.1
      unfold ThroughoutPair at this
      exact this
    · exact ih h2.2 k w hm

theorem noSuch_list {a : Str} {l : List PyVal} (h : NoSuchItem a (.list l)) : ∀ w ∈ l, NoSuchItem a w := by
  unfold NoSuchItem at h ⊢
  rw [Throughout.eq_def] at h
  have h2 := h.2
  clear h
  induction l with
  | nil => intro w hm; cases hm
  | cons x r ih =>
    unfold ThroughoutAll at h2
    intro w hm
    rcases List.mem_cons.1 hm with rfl | hm
    · exact h2.1
    · exact ih h2.2 w hm

theorem avoid_child {av : Option Str} {l : List PyPair} (h : ∀ a, av = some a → NoSuchItem a (.dict l)) {P : List Str} (hP : P ≠ []) {k : Str} {w : PyVal}
    (hm : .mk k w ∈ l) : Avoid av P [] k w :=
  ⟨fun a ha => (noSuch_dict (h a ha)).2 k w hm, (fun _ ha d hd => by subst hd; exact (noSuch_dict (h k ha)).1 d hm),
    (fun y hy => by cases hy), fun h0 => absurd (List.append_eq_nil_iff.1 h0).1 hP⟩

theorem built_dotted {c : Cont} {ps ts : List Entry} {l1 l2 : List PyPair} (h : Built c ps ts) (h1 : LineEnts ps l1) (h2 : SubEnts ts l2) :
    ∀ e ∈ c.body, isDottedKey e.key = false := by
  have hdot : ∀ k, (mkKey k).dotted = false := fun k => by unfold mkKey; split <;> rfl
  rw [h.body]
  intro e he
  rcases List.mem_append.1 he with he' | he'
  · clear h h2 he
    revert he'
    intro he
    induction h1 with
    | nil => cases he
    | @cons r k _ _ _ _ _ _ ih =>
      rcases List.mem_cons.1 he with rfl | he
      · exact hdot k
      · exact ih he
  · clear h h1 he
    revert he'
    intro he
    induction h2 with
    | nil => cases he
    | @cons r k _ _ _ _ _ ih =>
      rcases List.mem_cons.1 he with rfl | he
      · exact hdot k
      · exact ih he

/-- the entries and sub-tables of a converted table are read -/
theorem TblTxt.tab {tb : Tbl} {l : List PyPair} (h : TblTxt tb l) (av : Option Str) {P : List Str} (hP : P ≠ []) {b tail : Str} (hb : Nls b)
    (ht : AtHeader tail) (ha : ∀ a, av = some a → NoSuchItem a (.dict l)) (inAot : Bool) :
    Txt .tab av P [] (tb.cont.renderBody false inAot (pathStr P) ++ (b ++ tail)) tail (.dict l) := by
  obtain ⟨ps, ts, l1, l2, rfl, hB, h1, h2⟩ := h.ex
  have hd := h.once
  rw [List.map_append, List.nodup_append] at hd
  have e : tb.cont.renderBody false inAot (pathStr P) = entsStr (some (pathStr P)) ps ++ entsStr (some (pathStr P)) ts := by
    have hdt := built_dotted hB h1 h2
    rw [← entsStr_append, ← hB.body]
    rcases hc : tb.cont with ⟨bd, m, d, pr, tk⟩
    rw [hc] at hdt
    show tableBodyStr false inAot (pathStr P) bd = _
    exact tableBodyStr_ents inAot _ _ hdt
  obtain ⟨b1, text, e1, e2, e3, e4⟩ := h2.txt hd.2.1 av P [] hb ht fun k w hm => avoid_child ha hP (by simp [hm])
  rw [e, List.append_assoc]
  have hpf : pfxOf (P ++ []) = some (pathStr P) := by rw [List.append_nil]; unfold pfxOf; rw [if_neg hP]
  rw [hpf] at e1
  rw [e1]
  exact .tab (h1.lines _ e2 e3) (nest_flat hd.1) e4 fun k hk hk0 => hd.2.2 k hk0 k hk rfl

theorem atHeader_open (isAot : Bool) (x : Str) : AtHeader (headOpen isAot ++ x) := by
  right; cases isAot <;> exact ⟨_, rfl⟩

theorem headReads_path (p q : List Str) (k : Str) : HeadReads (pathStr (p ++ q ++ [k])) (p ++ q ++ [k]) := headReads_join (by simp)

/-- the table has no header: its only entry is a table -/
theorem TblTxt.super {tb : Tbl} {l : List PyPair} (h : TblTxt tb l) (hs : tb.isSuper = true) :
    ∃ e k w, tb.cont.body = [e] ∧ l = [.mk k w] ∧ SubEnts [e] l ∧ e.v.isTableLike = true := by
  obtain ⟨ps, ts, l1, l2, rfl, hB, h1, h2⟩ := h.ex
  unfold Tbl.isSuper at hs
  rw [h.flag] at hs
  dsimp only at hs
  have hcount := h.count
  rcases hd : tb.cont.dict with _ | ⟨k0, _ | _⟩
  · rw [hd] at hs; cases hs
  · rw [hd] at hs hcount
    dsimp only at hs
    rcases hm : mapGet k0 tb.cont.map with _ | ⟨_ | ⟨i, _ | _⟩⟩
    · rw [hm] at hs; cases hs
    · rw [hm] at hs; cases hs
    · rw [hm] at hs
      dsimp only at hs
      have hlen : tb.cont.body.length = 1 := by simpa using hcount.symm
      obtain ⟨e, he⟩ := List.length_eq_one_iff.1 hlen
      rw [he] at hs
      have hi : i = 0 := by
        rcases i with _ | i
        · rfl
        · simp at hs
      subst hi
      have htl : e.v.isTableLike = true := by simpa using hs
      have hb := hB.body
      rw [he] at hb
      rcases ps with _ | ⟨p, ps⟩
      · rw [List.nil_append] at hb
        rw [← hb] at h2
        cases h1
        rcases l2 with _ | ⟨⟨k, w⟩, _ | _⟩
        · cases h2
        · exact ⟨e, k, w, he, rfl, h2, htl⟩
        · cases h2 with | cons _ h3 => cases h3
      · rw [List.cons_append, List.cons.injEq] at hb
        have := (hB.plain p (by simp)).2.1
        rw [← hb.1, htl] at this
        cases this
    · rw [hm] at hs; cases hs
  · rw [hd] at hs; cases hs

theorem renderBody_eq (c : Cont) (kd ia : Bool) (key : Str) : c.renderBody kd ia key = tableBodyStr kd ia key c.body := by
  cases c; rfl

theorem mkKey_dotted (k : Str) : (mkKey k).dotted = false := by unfold mkKey; split <;> rfl

theorem subTxt_table {tb : Tbl} {l : List PyPair} (h : TblTxt tb l) (hA : tb.isAot = false) (k : Str) : SubTxt k (.table tb) (.dict l) := by
  intro av p q b t1 tail l0 hb ht1 hT hk hav
  have hkey : tableKeyText (mkKey k) (pfxOf (p ++ q)) tb = pathStr (p ++ q ++ [k]) := by
    unfold tableKeyText
    rw [h.display, pathStr_snoc]
  have hrend : Entry.render (pfxOf (p ++ q)) none (.mk (some (mkKey k)) (.table tb)) =
      tableHeader (mkKey k) (pfxOf (p ++ q)) tb ++ tb.cont.renderBody false false (pathStr (p ++ q ++ [k])) := by
    rw [← hkey]
    rcases tb with ⟨c, t, a, su, nm, d⟩
    show _ ++ Cont.renderBody (mkKey k).dotted false _ c = _
    rw [mkKey_dotted k]
    rfl
  rw [hrend, List.append_assoc]
  cases hs : tb.isSuper with
  | false =>
    have hhead : tableHeader (mkKey k) (pfxOf (p ++ q)) tb =
        tb.trivia.indent ++ (headOpen false ++ (pathStr (p ++ q ++ [k]) ++ (headClose false ++ [10]))) := by
      unfold tableHeader
      rw [if_pos (by unfold showsHeader; rw [hs]; rfl), hkey, hA, h.cws, h.comment, h.trail]
      simp [hasNl]
    refine ⟨tb.trivia.indent, headOpen false ++ (pathStr (p ++ q ++ [k]) ++ (headClose false ++ ([] ++ ([] ++ ([10] ++
      (tb.cont.renderBody false false (pathStr (p ++ q ++ [k])) ++ (b ++ t1))))))), ?_, h.indent, atHeader_open _ _, ?_⟩
    · rw [hhead]; simp
    · exact .table (headReads_path p q k) (fun c hc => by cases hc) cmt_nil (.lf _) (h.tab av (by simp) hb ht1 hav.inside false) hT hk
  | true =>
    obtain ⟨e, k2, w2, hbody, hl, hse, htl⟩ := h.super hs
    subst hl
    have hhead : ∃ b0, tableHeader (mkKey k) (pfxOf (p ++ q)) tb = b0 ∧ Nls b0 := by
      unfold tableHeader
      rw [if_neg]
      · split
        · exact ⟨_, rfl, fun x hx => by simpa using hx⟩
        · exact ⟨_, rfl, fun x hx => by cases hx⟩
      · unfold showsHeader
        rw [hs, hbody]
        simp only [List.any_cons, List.any_nil, Bool.or_false, Bool.not_true, Bool.false_or]
        have : e.v.isPlain = false := by
          unfold Item.isPlain
          unfold Item.isTableLike at htl
          cases h1 : e.v.isTable <;> simp_all
        rw [this]; simp
    obtain ⟨b0, hh, hb0⟩ := hhead
    have hdt : ∀ x ∈ tb.cont.body, isDottedKey x.key = false := by
      obtain ⟨ps, ts, l1, l2, _, hB, h1, h2⟩ := h.ex
      exact built_dotted hB h1 h2
    obtain ⟨b1, text, e1, e2, e3, e4⟩ := hse.txt (by simp) av p (q ++ [k]) hb ht1 (fun k' w' hm => by
      simp only [List.mem_singleton, PyPair.mk.injEq] at hm
      obtain ⟨rfl, rfl⟩ := hm
      refine ⟨fun a ha => (noSuch_dict (hav.inside a ha)).2 k' w' (by simp), fun h0 => by simp at h0, ?_, fun h0 => by simp at h0⟩
      intro y hy ha
      cases q with
      | nil =>
        simp only [List.nil_append, List.head?_cons, Option.some.injEq] at hy
        subst hy
        exact hav.here rfl ha _ rfl
      | cons z q =>
        simp only [List.cons_append, List.head?_cons, Option.some.injEq] at hy
        exact hav.below y (by simp [hy]) ha)
    refine ⟨b0 ++ b1, text, ?_, hb0.append e2, e3, .super e4 (by simp) hT hk⟩
    rw [hh, List.append_assoc b0, ← e1, renderBody_eq, tableBodyStr_ents _ _ _ hdt, hbody, ← List.append_assoc p q, pfxOf_snoc]

/-- the elements of a converted array of tables -/
inductive TblsTxt : List Tbl → List PyVal → Prop
  | nil : TblsTxt [] []
  | cons {t : Tbl} {ts : List Tbl} {d : List PyPair} {ls : List PyVal} (ht : TblTxt t d) (h : TblsTxt ts ls) : TblsTxt (t :: ts) (.dict d :: ls)

theorem elem_render (key : Str) (t : Tbl) {d : List PyPair} (h : TblTxt t d) (x : Str) : t.renderAotElem key ++ x =
    t.trivia.indent ++ (headOpen true ++ (key ++ (headClose true ++ ([] ++ ([] ++ ([10] ++ (t.cont.renderBody false true key ++ x))))))) := by
  have e : t.renderAotElem key = aotHeader key t.trivia ++ t.cont.renderBody false true key := by cases t; rfl
  rw [e]
  unfold aotHeader
  rw [h.cws, h.comment, h.trail]
  simp [headOpen, headClose]

theorem TblsTxt.txt {ts : List Tbl} {ls : List PyVal} (h : TblsTxt ts ls) (av : Option Str) {P : List Str} (hP : P ≠ []) {b tail : Str} (hb : Nls b)
    (ht : AtHeader tail) (ha : ∀ a, av = some a → ∀ w ∈ ls, NoSuchItem a w) :
    ∃ b1 text, aotRender (pathStr P) ts ++ (b ++ tail) = b1 ++ text ∧ Nls b1 ∧ AtHeader text ∧ Txt .elems av P [] text tail (.list ls) := by
  induction h with
  | nil => exact ⟨b, tail, rfl, hb, ht, .nil⟩
  | @cons t ts d ls hd h ih =>
    obtain ⟨b1, t1, e1, e2, e3, e4⟩ := ih fun a h0 w hw => ha a h0 w (by simp [hw])
    refine ⟨t.trivia.indent, headOpen true ++ (pathStr P ++ (headClose true ++ ([] ++ ([] ++ ([10] ++
      (t.cont.renderBody false true (pathStr P) ++ (b1 ++ t1))))))), ?_, hd.indent, atHeader_open _ _, ?_⟩
    · rw [← e1, ← elem_render _ _ hd]
      show (t.renderAotElem (pathStr P) ++ aotRender (pathStr P) ts) ++ _ = _
      rw [List.append_assoc]
    · exact .cons (headReads_join hP) (fun c hc => by cases hc) cmt_nil (.lf _)
        (hd.tab av hP e2 e3 (fun a h0 => ha a h0 _ (by simp)) true) e4

theorem TblsTxt.dicts {ts : List Tbl} {ls : List PyVal} (h : TblsTxt ts ls) : ∀ x ∈ ls, x.isDict = true := by
  induction h with
  | nil => intro x hx; cases hx
  | cons _ _ ih =>
    intro x hx
    rcases List.mem_cons.1 hx with rfl | hx
    · rfl
    · exact ih x hx

theorem subTxt_aot {ts : List Tbl} {ls : List PyVal} (h : TblsTxt ts ls) (hne : ls ≠ []) (t : Trivia) (nm : Option Str) (pr : Bool) (k : Str) :
    SubTxt k (.aot ts t nm pr) (.list ls) := by
  intro av p q b t1 tail l0 hb ht1 hT hk hav
  have hrend : Entry.render (pfxOf (p ++ q)) none (.mk (some (mkKey k)) (.aot ts t nm pr)) = aotRender (pathStr (p ++ q ++ [k])) ts := by
    rw [pathStr_snoc]; rfl
  rw [hrend]
  have hdicts := h.dicts
  cases h with
  | nil => exact absurd rfl hne
  | @cons t0 ts d ls hd h =>
    have hav' : ∀ a, (if p ++ q = [] then some k else av) = some a → ∀ w ∈ ls, NoSuchItem a w := by
      intro a ha w hw
      split at ha
      · rename_i hpq
        cases ha
        exact hav.top hpq _ _ rfl w hw
      · exact noSuch_list (hav.inside a ha) w (by simp [hw])
    obtain ⟨b1, t2, e1, e2, e3, e4⟩ := h.txt (if p ++ q = [] then some k else av) (P := p ++ q ++ [k]) (by simp) hb ht1 hav'
    refine ⟨t0.trivia.indent, headOpen true ++ (pathStr (p ++ q ++ [k]) ++ (headClose true ++ ([] ++ ([] ++ ([10] ++
      (t0.cont.renderBody false true (pathStr (p ++ q ++ [k])) ++ (b1 ++ t2))))))), ?_, hd.indent, atHeader_open _ _, ?_⟩
    · rw [← e1, ← elem_render _ _ hd]
      show (t0.renderAotElem _ ++ aotRender _ ts) ++ _ = _
      rw [List.append_assoc]
    · refine .aot (headReads_path p q k) (fun c hc => by cases hc) cmt_nil (.lf _) ?_
        (hd.tab av (by simp) e2 e3 (fun a h0 => noSuch_list (hav.inside a h0) _ (by simp)) true) e4 hT hk
      intro y hy h0
      exact hav.below y hy h0 ⟨by simp, hdicts⟩

end Tomlkit
