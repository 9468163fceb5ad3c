import Verif.Proofs.Clean
/-!
# The text of a new entry
-/
namespace Tomlkit

/-- where an entry is rendered: in a document, or in a table (`keyDotted`, `inAot`, name of the table) -/
inductive Ctx
  | top
  | tbl (kd ia : Bool) (key : Str)

/-- prefix for a table -/
def Ctx.tp (x : Ctx) (e : Entry) : Option Str :=
  match x with
  | .top => none
  | .tbl kd ia key =>
    match e.v with
    | .table tb => if tb.isSuper && isDottedKey e.key && (ia || !kd) then none else some key
    | _ => some key
/-- prefix for a simple item -/
def Ctx.sp (x : Ctx) : Option Str :=
  match x with
  | .top => none
  | .tbl kd ia key => if kd && !ia then some key else none
/-- text of an entry -/
def Ctx.entry (x : Ctx) (e : Entry) : Str := e.render (x.tp e) x.sp
/-- text of a list of entries -/
def Ctx.text (x : Ctx) (b : List Entry) : Str := b.flatMap x.entry

theorem bodyStr_ctx (b : List Entry) : bodyStr b = Ctx.top.text b := by
  induction b with
  | nil => rfl
  | cons e r ih => rw [bodyStr, ih]; rfl

theorem tableBodyStr_ctx (kd ia : Bool) (key : Str) (b : List Entry) : tableBodyStr kd ia key b = (Ctx.tbl kd ia key).text b := by
  induction b with
  | nil => rfl
  | cons e r ih => rw [tableBodyStr, ih]; rfl

theorem Ctx.text_append (x : Ctx) (a b : List Entry) : x.text (a ++ b) = x.text a ++ x.text b := by
  simp [Ctx.text]

/-- the contexts in which `key = value` lines are read -/
def Ctx.flat : Ctx → Prop
  | .top => True
  | .tbl kd _ _ => kd = false

/-- a value as the parser returns it -/
def Item.isSimple : Item → Bool
  | .ws .. | .comment _ | .table _ | .aot .. | .null _ => false
  | _ => true

theorem render_simple {v : Item} (h : v.isSimple = true) (k : SKey) (tp sp : Option Str) :
    (Entry.mk (some k) v).render tp sp = simpleHead k v.trivia sp ++ (v.asString ++ simpleTail v.trivia) := by
  cases v <;> first | rfl | cases h

/-- the text after the name of a `key = value` line -/
def lineTail (sep : Str) (v : Item) : Str := sep ++ (v.asString ++ simpleTail v.trivia)

theorem dottedChain_body : ∀ {r : List SKey} {nm : Option Str} {sep : Str} {v : Item} {t : Tbl}, dottedChain nm r sep v = some t → t.cont.body ≠ []
  | [], _, _, _, _, h => by cases h
  | [_], _, _, _, _, h => by
    rw [dottedChain] at h
    cases h
    exact List.cons_ne_nil _ _
  | k :: k2 :: r, nm, sep, v, t, h => by
    rw [dottedChain] at h
    obtain ⟨t', _, rfl⟩ := Option.map_eq_some_iff.1 h
    exact List.cons_ne_nil _ _
    all_goals simp

theorem dottedChain_text {v : Item} (hv : v.isSimple = true) (hc : v.Clean) (sep : Str) :
    ∀ (r : List SKey) (nm : Option Str) (t : Tbl), dottedChain nm r sep v = some t →
    (∀ key, tableBodyStr true false key t.cont.body =
      v.trivia.indent ++ (key ++ 46 :: (joinDot (r.map SKey.orig) ++ lineTail sep v))) ∧
    (∀ p, tableBodyStr false p [] t.cont.body = bodyStr t.cont.body) ∧
    bodyStr t.cont.body = v.trivia.indent ++ (joinDot (r.map SKey.orig) ++ lineTail sep v) ∧
    t.Clean ∧ t.superFlag = some true ∧ t.display = none ∧ t.trivia = {} ∧ t.isAot = false := by
  intro r
  induction r with
  | nil => intro nm t h; cases h
  | cons k r ih =>
    intro nm t h
    have hpl : (v.isNull || v.isWhitespace) = false := by cases v <;> first | rfl | cases hv
    have htb : ∀ tb, v ≠ .table tb := by rintro tb rfl; cases hv
    have htb' : v.isTable = false := by cases v <;> first | rfl | cases hv
    rcases r with _ | ⟨k2, r⟩
    · simp only [dottedChain, Option.some.injEq] at h
      subst h
      have he : (Entry.mk (some { k with sep := sep }) v).Clean :=
        ⟨hc, fun _ => hpl, fun tb h => absurd h (htb tb)⟩
      refine ⟨?_, ?_, ?_, ⟨⟨rfl, he, trivial⟩, Or.inr rfl⟩, rfl, rfl, rfl, rfl⟩
      · intro key
        simp only [dottedTable, Tbl.cont_mk, Cont.body_mk, tableBodyStr, List.append_nil]
        rw [render_simple hv]
        simp [simpleHead, withPrefix, lineTail, joinDot]
      · intro p
        simp only [dottedTable, Tbl.cont_mk, Cont.body_mk, tableBodyStr, bodyStr]
        rw [render_simple hv, render_simple hv]
        rfl
      · simp only [dottedTable, Tbl.cont_mk, Cont.body_mk, bodyStr, List.append_nil]
        rw [render_simple hv]
        simp [simpleHead, withPrefix, lineTail, joinDot]
    · simp only [dottedChain, Option.map_eq_some_iff] at h
      obtain ⟨t', ht', rfl⟩ := h
      obtain ⟨h1, h2, h3, h4, h5, h6, h7, h8⟩ := ih (some k.key) t' ht'
      have hjoin : joinDot ((k :: k2 :: r).map SKey.orig) = k.orig ++ 46 :: joinDot ((k2 :: r).map SKey.orig) :=
        joinDot_cons _ _ (by simp)
      have hsh : showsHeader { k with dotted := true } t' = false := by
        refine showsHeader_super h5 ?_
        intro hd; cases hd
      have hhead : ∀ pfx, tableHeader { k with dotted := true } pfx t' = [] := by
        intro pfx
        unfold tableHeader
        rw [hsh, h7]; rfl
      have hrender : ∀ pfx, t'.render { k with dotted := true } pfx =
          v.trivia.indent ++ (withPrefix pfx k.orig ++ 46 :: (joinDot ((k2 :: r).map SKey.orig) ++ lineTail sep v)) := by
        intro pfx
        rcases t' with ⟨⟨b, m, d, p, tk⟩, tr, a, s, n, dd⟩
        have h6' : dd = none := h6
        subst h6'
        have := hhead pfx
        show tableHeader { k with dotted := true } pfx _ ++ tableBodyStr true false (withPrefix pfx k.orig) b = _
        rw [this, List.nil_append]
        exact h1 _
      have hsup : t'.isSuper = true := by unfold Tbl.isSuper; rw [h5]
      have he : (Entry.mk (some { k with dotted := true }) (.table t')).Clean := by
        refine ⟨h4, fun _ => rfl, ?_⟩
        rintro tb htb _
        cases htb
        refine ⟨h6, by rw [h7]; decide, dottedChain_body ht', ?_⟩
        intro hd; cases hd
      refine ⟨?_, ?_, ?_, ⟨⟨rfl, he, trivial⟩, Or.inr rfl⟩, rfl, rfl, rfl, rfl⟩
      · intro key
        rw [hjoin]
        show t'.render _ (if (t'.isSuper && true && (false || !true)) = true then none else some key) ++ [] = _
        rw [hsup, List.append_nil]
        simp only [Bool.true_and, Bool.false_or, Bool.not_true, Bool.false_eq_true, if_false]
        rw [hrender]
        simp [withPrefix]
      · intro p
        show t'.render _ (if (t'.isSuper && true && (p || !false)) = true then none else some []) ++ [] = t'.render _ none ++ []
        rw [hsup]
        simp
      · rw [hjoin]
        show t'.render _ none ++ [] = _
        rw [hrender]
        simp [withPrefix]

/-- the entry made for a key and a value -/
inductive NewEntry (key : Key) (v : Item) : Entry → Prop
  | one (k) (h : key.parts = [k]) : NewEntry key v (.mk (some k) v)
  | chain (k r t nm) (h : key.parts = k :: r) (hr : r ≠ []) (ht : dottedChain none r key.sep v = some t) :
      NewEntry key v (.mk (some { k with dotted := true }) (.table (.mk t.cont t.trivia t.isAot t.superFlag nm t.display)))

theorem setSep_sep (key : Key) (s : Str) : (key.setSep s).sep = s := by cases key <;> rfl

theorem NewEntry.clean {key : Key} {v : Item} {e : Entry} (h : NewEntry key v e) (hv : v.isSimple = true) (hc : v.Clean) :
    e.Clean := by
  have hpl : (v.isNull || v.isWhitespace) = false := by cases v <;> first | rfl | cases hv
  have htb : ∀ tb, v ≠ .table tb := by rintro tb rfl; cases hv
  cases h with
  | one k _ => exact ⟨hc, fun _ => hpl, fun tb h => absurd h (htb tb)⟩
  | chain k r t nm _ _ ht =>
    obtain ⟨_, _, _, h4, h5, h6, h7, h8⟩ := dottedChain_text hv hc _ _ _ _ ht
    refine ⟨?_, fun _ => rfl, ?_⟩
    · rcases t with ⟨c, tr, a, s, n, d⟩; exact h4
    · rintro tb htb _
      cases htb
      refine ⟨h6, ?_, show t.cont.body ≠ [] from dottedChain_body ht, ?_⟩
      · show t.trivia.indent ≠ [10]
        rw [h7]; decide
      · intro hd; cases hd

theorem NewEntry.plain {key : Key} {v : Item} {e : Entry} (h : NewEntry key v e) (hv : v.isSimple = true) :
    ∃ k, e.key = some k ∧ ∀ k0 r0, key.parts = k0 :: r0 → k.key = k0.key := by
  cases h with
  | one k h => exact ⟨k, rfl, by intro k0 r0 h0; rw [h] at h0; cases h0; rfl⟩
  | chain k r t nm h _ _ => exact ⟨_, rfl, by intro k0 r0 h0; rw [h] at h0; cases h0; rfl⟩

/-- the line a new entry is written as -/
theorem NewEntry.line {key : Key} {u sep : Str} {v : Item} {e : Entry} (hk : KeyIs key u)
    (h : NewEntry (key.setSep sep) v e) (hv : v.isSimple = true) (hc : v.Clean) (x : Ctx) (hx : x.flat) :
    x.entry e = v.trivia.indent ++ (u ++ lineTail sep v) := by
  have hparts : (key.setSep sep).parts = key.parts ∨ ∃ k, key = .single k := by
    cases key
    · exact Or.inr ⟨_, rfl⟩
    · exact Or.inl rfl
  cases h with
  | one k h =>
    have hk' : key.setSep sep = .single k := by
      cases key with
      | single k0 => cases h; rfl
      | dotted ks s o =>
        have := hk.one k h
        cases this
    have hsep : k.sep = sep := by have := setSep_sep key sep; rw [hk'] at this; exact this
    have horig : k.orig = u := by
      rw [← hk.text]
      cases key with
      | single k0 => cases hk'; rfl
      | dotted ks s o => cases hk'
    unfold Ctx.entry
    rw [render_simple hv]
    have hsp : x.sp = none := by
      cases x with
      | top => rfl
      | tbl kd ia key => unfold Ctx.flat at hx; subst hx; rfl
    rw [hsp]
    simp [simpleHead, withPrefix, lineTail, hsep, horig]
  | chain k r t nm h hr ht =>
    have hp : key.parts = k :: r := by
      rcases hparts with hp | ⟨k0, rfl⟩
      · rw [← hp]; exact h
      · cases h; exact absurd rfl hr
    rw [setSep_sep] at ht
    obtain ⟨h1, _, h3, h4, h5, h6, h7, h8⟩ := dottedChain_text hv hc _ _ _ _ ht
    have hu : u = k.orig ++ 46 :: joinDot (r.map SKey.orig) := by
      rw [← hk.parts, hp, List.map_cons, joinDot_cons _ _ (by simpa using hr)]
    have hsh : showsHeader { k with dotted := true } (.mk t.cont t.trivia t.isAot t.superFlag nm t.display) = false := by
      refine showsHeader_super h5 ?_
      intro hd; cases hd
    have hhead : tableHeader { k with dotted := true } none (.mk t.cont t.trivia t.isAot t.superFlag nm t.display) = [] := by
      unfold tableHeader
      rw [hsh]
      show (if t.trivia.indent = [10] then [10] else []) = _
      rw [h7]; rfl
    have htp : x.tp (.mk (some { k with dotted := true }) (.table (.mk t.cont t.trivia t.isAot t.superFlag nm t.display))) = none := by
      cases x with
      | top => rfl
      | tbl kd ia key =>
        unfold Ctx.flat at hx
        subst hx
        unfold Ctx.tp
        dsimp only [Entry.v_mk, Entry.key_mk]
        refine if_pos ?_
        unfold Tbl.isSuper
        simp only [Tbl.superFlag_mk, h5]
        simp [isDottedKey]
    unfold Ctx.entry
    rw [htp]
    show (Tbl.mk t.cont t.trivia t.isAot t.superFlag nm t.display).render { k with dotted := true } none = _
    rcases t with ⟨⟨b, m, d, p, tk⟩, tr, a, s, n, dd⟩
    have h6' : dd = none := h6
    subst h6'
    show tableHeader { k with dotted := true } none _ ++ tableBodyStr true false k.orig b = _
    have := h1 k.orig
    simp only [Tbl.cont_mk, Cont.body_mk] at this
    rw [hhead, this, hu]
    simp

/-- the same for inline tables -/
theorem NewEntry.piece {key : Key} {u sep : Str} {v : Item} {e : Entry} (hk : KeyIs key u)
    (h : NewEntry (key.setSep sep) v e) (hv : v.isSimple = true) (hc : v.Clean) (hi : v.trivia.indent = [])
    (hw : v.trivia.commentWs = []) (hcm : v.trivia.comment = []) (ht : v.trivia.trail = []) :
    e.inlinePiece = u ++ (sep ++ v.asString) := by
  have hparts : (key.setSep sep).parts = key.parts ∨ ∃ k, key = .single k := by
    cases key
    · exact Or.inr ⟨_, rfl⟩
    · exact Or.inl rfl
  cases h with
  | one k h =>
    have hk' : key.setSep sep = .single k := by
      cases key with
      | single k0 => cases h; rfl
      | dotted ks s o =>
        have := hk.one k h
        cases this
    have hsep : k.sep = sep := by have := setSep_sep key sep; rw [hk'] at this; exact this
    have horig : k.orig = u := by
      rw [← hk.text]
      cases key with
      | single k0 => cases hk'; rfl
      | dotted ks s o => cases hk'
    have hd : k.dotted = false := by
      cases key with
      | single k0 => cases hk'; exact (hk.plain k0 (by simp [Key.parts])).1
      | dotted ks s o => cases hk'
    rw [Entry.inlinePiece, hi, hcm, ht, hd, hsep, horig]
    simp [dropNl]
  | chain k r t nm h hr hdc =>
    have hp : key.parts = k :: r := by
      rcases hparts with hp | ⟨k0, rfl⟩
      · rw [← hp]; exact h
      · cases h; exact absurd rfl hr
    rw [setSep_sep] at hdc
    obtain ⟨h1, _, h3, h4, h5, h6, h7, h8⟩ := dottedChain_text hv hc _ _ _ _ hdc
    have hu : u = k.orig ++ 46 :: joinDot (r.map SKey.orig) := by
      rw [← hk.parts, hp, List.map_cons, joinDot_cons _ _ (by simpa using hr)]
    have hsep : k.sep = [] := (hk.plain k (by rw [hp]; simp)).2
    have hstr : (Item.table (.mk t.cont t.trivia t.isAot t.superFlag nm t.display)).asString = bodyStr t.cont.body := by
      rcases t with ⟨⟨b, m, d, p, tk⟩, tr, a, s, n, dd⟩; rfl
    rw [Entry.inlinePiece, hstr, h3]
    show t.trivia.indent ++ (k.orig ++ ([46] ++ (k.sep ++ (_ ++ (t.trivia.comment ++ dropNl t.trivia.trail))))) = _
    rw [h7, hsep, hu, hi]
    simp [lineTail, simpleTail, hw, hcm, ht, dropNl]

end Tomlkit
