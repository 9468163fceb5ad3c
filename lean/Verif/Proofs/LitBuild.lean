import Verif.Proofs.TidyText
import Verif.Proofs.ReadFloat
import Verif.Proofs.Insert
/-!
# Values converted by `item()` are literals
-/
namespace Tomlkit
open _root_.Spec Tomlkit.Spec

variable {q : Prop}

/-- a literal whatever its trivia -/
def LitAny (q : Prop) (w : PyVal) (i : Item) : Prop := ∀ t : Trivia, (∀ c ∈ t.indent, isWs c = true) → Lit q w (i.setTrivia t)

/-- the trivia of a value that was just made -/
structure FreshTrivia (t : Trivia) : Prop where
  indent : t.indent = []
  cws : t.commentWs = []
  comment : t.comment = []
  trail : t.trail = [] ∨ t.trail = [10]

/-- a literal that was just made -/
structure Fresh (q : Prop) (w : PyVal) (i : Item) : Prop where
  lit : LitAny q w i
  triv : FreshTrivia i.trivia

theorem LitAny.lit {w : PyVal} {i : Item} (h : LitAny q w i) (hi : ∀ c ∈ i.trivia.indent, isWs c = true) : Lit q w i := by
  have := h i.trivia hi
  rwa [setTrivia_self] at this

theorem Fresh.is {w : PyVal} {i : Item} (h : Fresh q w i) : Lit q w i :=
  h.lit.lit (by rw [h.triv.indent]; intro c hc; cases hc)

theorem setTrivia_twice (i : Item) (t t' : Trivia) : (i.setTrivia t).setTrivia t' = i.setTrivia t' := by
  rcases i with _ | _ | _ | _ | _ | _ | _ | _ | _ | _ | _ | tb | ⟨ts, t, nm, p⟩ | _ <;> try rfl
  rcases tb with ⟨c, t, a, s, n, d⟩
  rfl

theorem LitAny.setTrivia {w : PyVal} {i : Item} (h : LitAny q w i) (t : Trivia) : LitAny q w (i.setTrivia t) := by
  intro t' ht'
  rw [setTrivia_twice]
  exact h t' ht'

theorem LitAny.kind {w : PyVal} {i : Item} (h : LitAny q w i) : i.isWhitespace = false ∧ i.isNull = false ∧ i.isTableLike = false := by
  have := h {} (fun c hc => by cases hc)
  have hk := holds_kind this.holds
  have htl := this.tl
  rw [isTableLike_setTrivia] at htl
  refine ⟨?_, ?_, htl⟩
  · have := hk.1; cases i <;> first | rfl | cases this
  · have := hk.2.2; cases i <;> first | rfl | cases this

theorem LitAny.trivia {w : PyVal} {i : Item} (h : LitAny q w i) (t : Trivia) : (i.setTrivia t).trivia = t :=
  setTrivia_trivia h.kind.1 t

/-! ## Scalars -/

theorem fresh_of {w : PyVal} {i : Item} (h1 : ∀ t, Holds w (i.setTrivia t)) (h2 : ∀ t, (i.setTrivia t).asString = i.asString)
    (h3 : ReadsAs q i.asString w) (h4 : i.isTableLike = false) (h5 : FreshTrivia i.trivia) : Fresh q w i :=
  ⟨fun t _ => ⟨h1 t, by rw [h2]; exact h3, by rw [isTableLike_setTrivia]; exact h4⟩, h5⟩

theorem freshTrivia_default : FreshTrivia {} := ⟨rfl, rfl, rfl, .inr rfl⟩

theorem fresh_bool (b : Bool) : Fresh q (.bool b) (.bool b {}) :=
  fresh_of (fun _ => ⟨_, rfl⟩) (fun _ => rfl) (by have := reads_bool (q := q) b; cases b <;> exact this) rfl freshTrivia_default

theorem fresh_int (n : Int) : Fresh q (.int n) (intItem n) :=
  fresh_of (fun _ => ⟨_, _, rfl⟩) (fun _ => rfl) (reads_int n) rfl freshTrivia_default

theorem fresh_str (s : Str) : Fresh q (.str s) (stringItem s) :=
  fresh_of (fun _ => ⟨_, _, _, rfl⟩) (fun _ => rfl) (reads_str s) rfl freshTrivia_default

theorem fresh_date {d : PDate} (h : ValidDate d.year d.month d.day) : Fresh q (.date d) (dateItem d) :=
  fresh_of (fun _ => ⟨_, _, rfl⟩) (fun _ => rfl) (reads_date h) rfl freshTrivia_default

theorem fresh_time {t : PTime} (h : ValidTime t.hour t.minute t.second t.micro) : Fresh q (.time t) (timeItem t) :=
  fresh_of (fun _ => ⟨_, _, rfl⟩) (fun _ => rfl) (reads_time h) rfl freshTrivia_default

theorem fresh_datetime {v : PDateTime} (hd : ValidDate v.date.year v.date.month v.date.day)
    (ht : ValidTime v.time.hour v.time.minute v.time.second v.time.micro) (hz : ∀ o, v.tz = some o → ValidOffset o) :
    Fresh q (.datetime v) (datetimeItem v) :=
  fresh_of (fun _ => ⟨_, _, rfl⟩) (fun _ => rfl) (reads_datetime hd ht hz) rfl freshTrivia_default

theorem fresh_float {s : Str} (h : FloatRepr s) : Fresh q (.float s) (.float s {} s) :=
  fresh_of (fun _ => ⟨_, _, rfl⟩) (fun _ => rfl) (reads_float h) rfl freshTrivia_default

/-! ## Arrays -/

theorem fresh_array {is : List Item} (h : ∀ i ∈ is, ∃ w, Fresh q w i) : ∃ i w, buildArray is = .ok i ∧ Fresh q w i := by
  obtain ⟨i, l, h1, h2, h3⟩ := buildArray_lit fun i hi => (by obtain ⟨w, hw⟩ := h i hi; exact ⟨w, hw.is⟩)
  refine ⟨i, .list l, h1, ?_⟩
  unfold buildArray at h1
  rcases he : (mkArray []).extend is with e | a <;> rw [he] at h1
  · cases h1
  · cases h1
    exact fresh_of (fun t => holds_setTrivia t h3.holds) (fun t => rfl) h3.reads rfl freshTrivia_default

/-! ## Inline tables -/

/-- the text of a key with its separator -/
def KeySep (k : SKey) : Prop := k.dotted = false ∧ ∃ b sp, k.sep = b ++ 61 :: sp ∧ KeyReads (k.orig ++ b) k.key ∧ Spaces sp

theorem keySep_mkKey (k : Str) : KeySep (mkKey k) := by
  refine ⟨?_, [32], [32], ?_, ?_, ?_⟩
  · unfold mkKey; split <;> rfl
  · unfold mkKey; split <;> rfl
  · rw [mkKey_key]; exact keyReads_mkKey k (fun c hc => by simpa using hc)
  · intro c hc; rw [List.mem_singleton] at hc; subst hc; rfl

/-- an entry of an inline table that reads as the pair -/
structure InlEntry (q : Prop) (k : Str) (w : PyVal) (e : Entry) : Prop where
  ex : ∃ key v, e = .mk (some key) v ∧ key.key = k ∧ KeySep key ∧ Lit q w v ∧ Spaces v.trivia.indent ∧ v.trivia.comment = [] ∧
    dropNl v.trivia.trail = []

theorem InlEntry.key {k : Str} {w : PyVal} {e : Entry} (h : InlEntry q k w e) : e.key.isSome = true := by
  obtain ⟨key, v, rfl, _⟩ := h; rfl

/-- the entries of an inline table and the pairs they read as -/
inductive InlEntries (q : Prop) : List Entry → List PyPair → Prop
  | nil : InlEntries q [] []
  | cons {e : Entry} {r : List Entry} {k : Str} {w : PyVal} {l : List PyPair} (he : InlEntry q k w e) (h : InlEntries q r l) :
      InlEntries q (e :: r) (.mk k w :: l)

theorem InlEntries.append {a b : List Entry} {l m : List PyPair} (h1 : InlEntries q a l) (h2 : InlEntries q b m) :
    InlEntries q (a ++ b) (l ++ m) := by
  induction h1 with
  | nil => exact h2
  | cons he _ ih => exact .cons he ih

theorem InlEntries.allKeys {es : List Entry} {l : List PyPair} (h : InlEntries q es l) : ∀ e ∈ es, e.key.isSome = true := by
  induction h with
  | nil => intro e he; cases he
  | cons he _ ih =>
    intro e hm
    rcases List.mem_cons.1 hm with rfl | hm
    · exact he.key
    · exact ih e hm

theorem InlEntries.names {es : List Entry} {l : List PyPair} (h : InlEntries q es l) : es.map Entry.name = l.map fun p => some p.key := by
  induction h with
  | nil => rfl
  | cons he _ ih =>
    obtain ⟨⟨key, v, rfl, hk, _⟩⟩ := he
    simp [ih, Entry.name, hk]

theorem InlEntries.mem {es : List Entry} {l : List PyPair} (h : InlEntries q es l) {k : Str} {w : PyVal} (hm : .mk k w ∈ l) :
    ∃ e ∈ es, InlEntry q k w e := by
  induction h with
  | nil => cases hm
  | cons he _ ih =>
    rcases List.mem_cons.1 hm with h0 | hm
    · cases h0; exact ⟨_, List.mem_cons_self .., he⟩
    · obtain ⟨e, h1, h2⟩ := ih hm
      exact ⟨e, List.mem_cons_of_mem _ h1, h2⟩

/-- the pieces of an inline table with their separators -/
def inlBody (sep : Str) : List Entry → Str
  | [] => []
  | [e] => e.inlinePiece
  | e :: e' :: r => e.inlinePiece ++ (sep ++ inlBody sep (e' :: r))

theorem lastKeyIdx_all {es : List Entry} (h : ∀ e ∈ es, e.key.isSome = true) (hne : es ≠ []) : lastKeyIdx es = some (es.length - 1) := by
  rcases List.eq_nil_or_concat es with rfl | ⟨q, e, rfl⟩
  · exact absurd rfl hne
  · rw [List.concat_eq_append] at h ⊢
    unfold lastKeyIdx
    have := h e (by simp)
    simp [List.zipIdx_append, this]

theorem inlineLoop_all (new : Bool) : ∀ (es : List Entry) (n i : Nat) (buf : Str), (∀ e ∈ es, e.key.isSome = true) → i + es.length = n →
    inlineLoop new (some (n - 1)) n i buf es = buf ++ inlBody (if new then t!", " else t!",") es
  | [], n, i, buf, _, _ => by simp [inlineLoop, inlBody]
  | e :: r, n, i, buf, h, hn => by
    have hk := h e (by simp)
    rcases e with ⟨_ | k, v⟩
    · cases hk
    have hstep : inlineLoop new (some (n - 1)) n i buf (.mk (some k) v :: r) = inlineLoop new (some (n - 1)) n (i + 1)
        (if i < n - 1 then (buf ++ Entry.inlinePiece (.mk (some k) v)) ++ (if new then t!", " else t!",")
          else buf ++ Entry.inlinePiece (.mk (some k) v)) r := rfl
    rw [hstep]
    rw [inlineLoop_all new r n (i + 1) _ (fun x hx => h x (by simp [hx])) (by simp at hn; omega)]
    rcases r with _ | ⟨e', r⟩
    · simp at hn
      rw [if_neg (by omega), inlBody, inlBody, List.append_nil]
    · simp at hn
      rw [if_pos (by omega), inlBody, List.append_assoc, List.append_assoc]

theorem inlineString_all {c : Cont} {new : Bool} (h : ∀ e ∈ c.body, e.key.isSome = true) :
    c.inlineString new = 123 :: (inlBody (if new then t!", " else t!",") c.body ++ [125]) := by
  rcases c with ⟨b, m, d, p, t⟩
  rw [Cont.inlineString]
  rw [Cont.body_mk] at h
  by_cases hb : b = []
  · subst hb; rfl
  · rw [lastKeyIdx_all h hb, inlineLoop_all new b b.length 0 _ h (by omega)]
    rfl

theorem inlBody_text (new : Bool) {es : List Entry} {l : List PyPair} (h : InlEntries q es l) :
    ∀ tc, tc ≠ some false → (es = [] → tc = none) → InlText q tc (inlBody (if new then t!", " else t!",") es ++ [125]) (flatPairs l) := by
  induction h with
  | nil => intro tc h1 h2; rw [h2 rfl]; exact .close (by simp)
  | @cons e r k w l he hr ih =>
    intro tc htc _
    obtain ⟨⟨key, v, rfl, rfl, ⟨hdot, b, sp, hsep, hK, hsp⟩, hl, hind, hcm, htr⟩⟩ := he
    have hpiece : ∀ X, Entry.inlinePiece (.mk (some key) v) ++ X =
        v.trivia.indent ++ ((key.orig ++ b) ++ 61 :: (sp ++ (v.asString ++ ([] ++ X)))) := by
      intro X
      rw [Entry.inlinePiece, hdot, hsep, hcm, htr]; simp
    have addInd : ∀ {ind t : Str} {l : List (List Str × PyVal)}, Spaces ind → InlText q tc t l → InlText q tc (ind ++ t) l := by
      intro ind t l hi ht
      induction ind with
      | nil => exact ht
      | cons c q ihq => exact .sp (hi c (by simp)) (fun _ => htc) (ihq fun x hx => hi x (by simp [hx]))
    cases hr with
    | nil =>
      rw [inlBody, hpiece]
      exact addInd hind (.pair htc hK.path hsp hl.reads Blank.nil (fun _ => rfl) (dateEnds_cons rfl _) (.close (by simp)))
    | @cons e' r' k' w' l' he' hr' =>
      rw [inlBody, List.append_assoc, hpiece, List.append_assoc (if new then t!", " else t!",")]
      have h1 := ih (some true) (by simp) (by simp)
      refine addInd hind (.pair htc hK.path hsp hl.reads Blank.nil (fun _ => rfl) ?_ ?_)
      · cases new <;> exact dateEnds_cons rfl _
      · cases new
        · exact .comma h1
        · exact .comma (.sp rfl (fun _ => by simp) h1)

/-- an inline table whose entries are literals -/
theorem inline_lit {c : Cont} {l : List PyPair} (hw : c.WF) (hdict : c.dict = l.map PyPair.key) (he : InlEntries q c.body l)
    (t : Trivia) (new : Bool) : Lit q (.dict l) (.inline c t new) := by
  have hnd : (l.map PyPair.key).Nodup := by rw [← hdict]; exact hw.dictNodup
  have honce : (c.body.map Entry.name).Nodup := by
    rw [he.names]
    have : (l.map fun p => some p.key) = (l.map PyPair.key).map some := by rw [List.map_map]; rfl
    rw [this]
    exact List.Pairwise.map some (fun a b h he => h (Option.some.inj he)) hnd
  refine ⟨?_, ?_, rfl⟩
  · unfold Holds
    refine ⟨c, rfl, hdict, ?_⟩
    have key : ∀ (m : List PyPair), (∀ k v, .mk k v ∈ m → .mk k v ∈ l) → HoldsIn m c := by
      intro m
      induction m with
      | nil => intro _; unfold HoldsIn; trivial
      | cons p r ih =>
        intro hm
        rcases p with ⟨k, v⟩
        unfold HoldsIn
        refine ⟨?_, ih fun k v h => hm k v (List.mem_cons_of_mem _ h)⟩
        obtain ⟨e, h1, ⟨key, w, rfl, rfl, _, hl, _⟩⟩ := he.mem (hm k v (List.mem_cons_self ..))
        unfold HoldsPair
        obtain ⟨i, h3, h4⟩ := mem_of_once hw honce h1
        exact ⟨w, item_single.2 ⟨i, _, h3, h4, rfl⟩, hl.holds⟩
    exact key l fun _ _ h => h
  · rw [Item.asString, inlineString_all he.allKeys]
    exact reads_inline (inlBody_text new he none (by simp) (fun _ => rfl)) (nest_flat hnd)

/-! ## Building -/

/-- the values of a container built by assignments, as the pairs they read as -/
inductive FreshEntries (q : Prop) : List Entry → List PyPair → Prop
  | nil : FreshEntries q [] []
  | cons {r : List Entry} {k : Str} {w : PyVal} {v : Item} {l : List PyPair} (he : Fresh q w v) (h : FreshEntries q r l) :
      FreshEntries q (.mk (some (mkKey k)) v :: r) (.mk k w :: l)

theorem FreshEntries.append {a b : List Entry} {l m : List PyPair} (h1 : FreshEntries q a l) (h2 : FreshEntries q b m) :
    FreshEntries q (a ++ b) (l ++ m) := by
  induction h1 with
  | nil => exact h2
  | cons he _ ih => exact .cons he ih

theorem FreshTrivia.dropNl {t : Trivia} (h : FreshTrivia t) : Tomlkit.dropNl t.trail = [] := by
  rcases h.trail with h | h <;> rw [h] <;> rfl

theorem FreshEntries.inl {es : List Entry} {l : List PyPair} (h : FreshEntries q es l) : InlEntries q es l := by
  induction h with
  | nil => exact .nil
  | @cons r k w v l he _ ih =>
    refine .cons ⟨mkKey k, v, rfl, mkKey_key k, keySep_mkKey k, he.is, ?_, he.triv.comment, he.triv.dropNl⟩ ih
    rw [he.triv.indent]; intro c hc; cases hc

/-- a fresh literal with another trail -/
theorem Fresh.trail {w : PyVal} {i : Item} (h : Fresh q w i) {tr : Str} (ht : tr = [] ∨ tr = [10]) :
    Fresh q w (i.setTrivia { i.trivia with trail := tr }) := by
  refine ⟨h.lit.setTrivia _, ?_⟩
  rw [h.lit.trivia]
  exact ⟨h.triv.indent, h.triv.cws, h.triv.comment, ht⟩

theorem FreshEntries.modify {es : List Entry} {l : List PyPair} (h : FreshEntries q es l) : ∀ n, FreshEntries q (addTrailNl n es) l := by
  induction h with
  | nil => intro n; simpa [addTrailNl] using FreshEntries.nil
  | @cons r k w v l he hr ih =>
    intro n
    rcases n with _ | n
    · have hstep : addTrailNl 0 (.mk (some (mkKey k)) v :: r) =
          (if (v.isWhitespace || endsWithWs v || hasNl v.trivia.trail) = true then .mk (some (mkKey k)) v
            else .mk (some (mkKey k)) (v.setTrivia { v.trivia with trail := v.trivia.trail ++ [10] })) :: r := rfl
      rw [hstep]
      by_cases hc : (v.isWhitespace || endsWithWs v || hasNl v.trivia.trail) = true
      · rw [if_pos hc]; exact .cons he hr
      · rw [if_neg hc]
        refine .cons (he.trail ?_) hr
        rcases he.triv.trail with h0 | h0
        · right; rw [h0]; rfl
        · exfalso; rw [h0] at hc; simp [hasNl] at hc
    · have := ih n
      unfold addTrailNl at this ⊢
      rw [List.modify_succ_cons]
      exact .cons he this

theorem FreshEntries.closeLine {es : List Entry} {l : List PyPair} (h : FreshEntries q es l) : FreshEntries q (closeLine es) l :=
  h.modify _

/-- distinct new keys with literals assigned -/
theorem fold_lit {α : Type} (kf : α → Str) (vf : α → Item) (cs : List α) : ∀ {c : Cont} {ps : List Entry} {l : List PyPair},
    Built c ps [] → FreshEntries q ps l → c.dict = l.map PyPair.key → (∀ ch ∈ cs, ∃ w, Fresh q w (vf ch)) → (c.dict ++ cs.map kf).Nodup →
    ∃ c' ps' l', foldE (fun c ch => c.setItemIndented [] (kf ch) (vf ch)) c cs = .ok c' ∧ Built c' ps' [] ∧ FreshEntries q ps' l' ∧
      c'.dict = l'.map PyPair.key := by
  induction cs with
  | nil => intro c ps l h1 h2 h3 _ _; exact ⟨c, ps, l, rfl, h1, h2, h3⟩
  | cons x r ih =>
    intro c ps l h1 h2 h3 h4 hd
    obtain ⟨w, hw⟩ := h4 x (by simp)
    have hx : kf x ∉ c.dict := by
      rw [List.nodup_append] at hd
      intro hm
      exact hd.2.2 _ hm (kf x) (by simp) rfl
    have hk : mapGet (kf x) c.map = none := by
      rcases hm : mapGet (kf x) c.map with _ | is
      · rfl
      · exact absurd ((h1.wf.dictMem _).2 (by rw [hm]; rfl)) hx
    obtain ⟨k1, k2, k3⟩ := hw.lit.kind
    obtain ⟨c1, e1, e2, e3⟩ := built_plain h1 hk k3 k2 k1
    obtain ⟨c2, ps2, l2, f1, f2⟩ := ih (l := l ++ [.mk (kf x) w]) e2 (h2.closeLine.append (.cons hw .nil)) (by rw [e3, h3]; simp)
      (fun ch hc => h4 ch (by simp [hc])) (by rw [e3]; simpa using hd)
    exact ⟨c2, ps2, l2, by unfold foldE; rw [e1]; exact f1, f2⟩

theorem fresh_inlineVal {w : PyVal} {ch : Child} (h : Fresh q w ch.item) : Fresh q w (inlineVal ch) := by
  unfold inlineVal
  rw [if_neg (by rw [h.lit.kind.1]; simp)]
  refine ⟨h.lit.setTrivia _, ?_⟩
  rw [h.lit.trivia]
  exact ⟨h.triv.indent, h.triv.cws, rfl, h.triv.trail⟩

/-- an inline table built from literals -/
theorem buildInline_lit {cs : List Child} (hcs : ∀ ch ∈ cs, ∃ w, Fresh q w ch.item) (hd : (cs.map Child.key).Nodup) (new : Bool) :
    ∃ c w, buildInline cs = .ok c ∧ Fresh q w (.inline c {} new) := by
  obtain ⟨c, ps, l, e1, e2, e3, e4⟩ := fold_lit Child.key inlineVal cs built_empty .nil rfl
    (fun ch hc => by obtain ⟨w, hw⟩ := hcs ch hc; exact ⟨w, fresh_inlineVal hw⟩) (by simpa [Cont.empty] using hd)
  have hb : c.body = ps := by rw [e2.body, List.append_nil]
  have hl : ∀ t, Lit q (.dict l) (.inline c t new) := fun t => inline_lit e2.wf e4 (by rw [hb]; exact e3.inl) t new
  exact ⟨c, .dict l, by rw [buildInline_eq]; exact e1, fun t _ => hl t, freshTrivia_default⟩

theorem children_keys {s : Bool} {p : Parent} : ∀ {l : List PyPair} {cs : List Child}, l.toChildren s p = .ok cs → cs.map Child.key = l.map PyPair.key
  | [], cs, h => by unfold List.toChildren at h; cases h; rfl
  | .mk k v :: r, cs, h => by
    unfold List.toChildren PyPair.toChild at h
    rcases hi : v.toItem s p with e | i <;> rw [hi] at h
    · cases h
    · rcases hr : r.toChildren s p with e | cr
      · simp only [Except.map] at h; rw [hr] at h; cases h
      · simp only [Except.map] at h; rw [hr] at h; cases h
        simp [children_keys hr]

theorem fresh_noTrail {w : PyVal} {ch : Child} (h : Fresh q w ch.item) : Fresh q w ch.noTrail.item := h.trail (.inl rfl)

theorem proper_list {l : List PyVal} (h : Writable (.list l)) : ThroughoutAll Proper l := by
  unfold Writable at h; rw [Throughout.eq_def] at h; exact h.2
theorem proper_dict {l : List PyPair} (h : Writable (.dict l)) : ThroughoutIn Proper l := by
  unfold Writable at h; rw [Throughout.eq_def] at h; exact h.2

theorem buildArray_noTable {is : List Item} {i : Item} (h : buildArray is = .ok i) : i.isTableLike = false := by
  unfold buildArray at h
  rcases he : (mkArray []).extend is with e | a <;> rw [he] at h <;> cases h
  rfl

/-- a value inside an inline table is no table -/
theorem inline_noTable {v : PyVal} {s : Bool} {i : Item} (h : v.toItem s .inline = .ok i) : i.isTableLike = false := by
  rcases v with _ | _ | _ | _ | _ | _ | _ | _ | l | l <;> unfold PyVal.toItem at h <;> try (cases h; rfl)
  · cases h
  · rw [if_neg (by simp)] at h
    rcases ht : l.toElems s with e | is <;> rw [ht] at h
    · cases h
    · exact buildArray_noTable h
  · dsimp only at h
    rcases ht : l.toChildren s .inline with e | cs <;> rw [ht] at h
    · cases h
    · rcases hb : buildInline (dictOrder s cs) with e | c <;> simp only [hb] at h <;> cases h
      rfl

mutual
/-- a converted value that is no table is a literal -/
theorem item_lit : ∀ (v : PyVal), KeysOnce v → Writable v → ∀ (s : Bool) (p : Parent) (i : Item), v.toItem s p = .ok i →
    i.isTableLike = false → ∃ w, Fresh q w i
  | .bool b, _, _, s, p, i, h, _ => by unfold PyVal.toItem at h; cases h; exact ⟨_, fresh_bool b⟩
  | .int n, _, _, s, p, i, h, _ => by unfold PyVal.toItem at h; cases h; exact ⟨_, fresh_int n⟩
  | .str n, _, _, s, p, i, h, _ => by unfold PyVal.toItem at h; cases h; exact ⟨_, fresh_str n⟩
  | .date n, _, hw, s, p, i, h, _ => by
    unfold PyVal.toItem at h; cases h; exact ⟨_, fresh_date (throughout_here hw)⟩
  | .time n, _, hw, s, p, i, h, _ => by
    unfold PyVal.toItem at h; cases h; exact ⟨_, fresh_time (throughout_here hw)⟩
  | .datetime n, _, hw, s, p, i, h, _ => by
    unfold PyVal.toItem at h; cases h
    have := throughout_here hw
    exact ⟨_, fresh_datetime this.1 this.2.1 this.2.2⟩
  | .float n, _, hw, s, p, i, h, _ => by
    unfold PyVal.toItem at h; cases h; exact ⟨_, fresh_float (throughout_here hw)⟩
  | .none, _, hw, s, p, i, h, _ => absurd (throughout_here hw) (fun h => h)
  | .list l, hk, hw, s, p, i, h, htl => by
    unfold KeysOnce at hk
    unfold PyVal.toItem at h
    split at h
    · exfalso
      rcases ht : l.toTables s with e | ts <;> rw [ht] at h
      · cases h
      · cases h; cases htl
    · rcases ht : l.toElems s with e | is <;> rw [ht] at h
      · cases h
      · obtain ⟨i', w, h1, h2⟩ := fresh_array (elems_lit l hk (proper_list hw) s is ht)
        simp only [h1] at h; cases h
        exact ⟨w, h2⟩
  | .dict l, hk, hw, s, p, i, h, htl => by
    unfold KeysOnce at hk
    have htab : ∀ {i}, (match l.toChildren s .table with
        | .error e => .error e
        | .ok cs => (buildTable false (dictOrder s cs)).map Item.table) = Except.ok i → i.isTableLike = true := by
      intro i h
      rcases ht : l.toChildren s .table with e | cs <;> rw [ht] at h
      · cases h
      · rcases hb : buildTable false (dictOrder s cs) with e | t <;> simp only [hb] at h <;> cases h
        rfl
    have hinl : (match l.toChildren s .inline with
        | .error e => .error e
        | .ok cs => (buildInline (dictOrder s cs)).map fun c => Item.inline c {} false) = Except.ok i → ∃ w, Fresh q w i := by
      intro h
      rcases ht : l.toChildren s .inline with e | cs <;> rw [ht] at h
      · cases h
      · have hc := children_lit l hk.2 (proper_dict hw) s cs ht
        have hn : ((dictOrder s cs).map Child.key).Nodup := by
          have := (dictOrder_perm s cs).map Child.key
          rw [this.nodup_iff, children_keys ht]; exact hk.1
        obtain ⟨c, w, e1, e2⟩ := buildInline_lit (fun ch hm => hc ch ((dictOrder_perm s cs).mem_iff.1 hm)) hn false
        simp only [e1] at h
        cases h
        exact ⟨w, e2⟩
    rcases p with _ | _ | _ | _ <;> unfold PyVal.toItem at h
    · rw [htab h] at htl; cases htl
    · rw [htab h] at htl; cases htl
    · exact hinl h
    · exact hinl h
termination_by v => sizeOf v
theorem children_lit : ∀ (l : List PyPair), KeysOnceIn l → ThroughoutIn Proper l → ∀ (s : Bool) (cs : List Child),
    l.toChildren s .inline = .ok cs → ∀ ch ∈ cs, ∃ w, Fresh q w ch.item
  | [], _, _, s, cs, h => by unfold List.toChildren at h; cases h; intro ch hc; cases hc
  | .mk k v :: r, hk, hw, s, cs, h => by
    unfold KeysOnceIn at hk
    unfold ThroughoutIn at hw
    unfold List.toChildren PyPair.toChild at h
    rcases hi : v.toItem s .inline with e | i <;> rw [hi] at h
    · cases h
    · rcases hr : r.toChildren s .inline with e | cr
      · simp only [Except.map] at h; rw [hr] at h; cases h
      · simp only [Except.map] at h; rw [hr] at h; cases h
        intro ch hc
        rcases List.mem_cons.1 hc with rfl | hc
        · exact item_lit v hk.1 hw.1 s .inline i hi (inline_noTable hi)
        · exact children_lit r hk.2 hw.2 s cr hr ch hc
termination_by l => sizeOf l
theorem elems_lit : ∀ (l : List PyVal), KeysOnceAll l → ThroughoutAll Proper l → ∀ (s : Bool) (is : List Item),
    l.toElems s = .ok is → ∀ i ∈ is, ∃ w, Fresh q w i
  | [], _, _, s, is, h => by unfold List.toElems at h; cases h; intro ch hc; cases hc
  | v :: r, hk, hw, s, is, h => by
    unfold KeysOnceAll at hk
    unfold ThroughoutAll at hw
    unfold List.toElems at h
    rcases hi : v.toElem s with e | i <;> rw [hi] at h
    · cases h
    · rcases hr : r.toElems s with e | ir
      · simp only [Except.map] at h; rw [hr] at h; cases h
      · simp only [Except.map] at h; rw [hr] at h; cases h
        intro x hc
        rcases List.mem_cons.1 hc with rfl | hc
        · exact elem_lit v hk.1 hw.1 s _ hi
        · exact elems_lit r hk.2 hw.2 s ir hr x hc
termination_by l => sizeOf l
theorem elem_lit : ∀ (v : PyVal), KeysOnce v → Writable v → ∀ (s : Bool) (i : Item), v.toElem s = .ok i → ∃ w, Fresh q w i
  | .bool b, _, _, s, i, h => by unfold PyVal.toElem at h; cases h; exact ⟨_, fresh_bool b⟩
  | .int n, _, _, s, i, h => by unfold PyVal.toElem at h; cases h; exact ⟨_, fresh_int n⟩
  | .str n, _, _, s, i, h => by unfold PyVal.toElem at h; cases h; exact ⟨_, fresh_str n⟩
  | .date n, _, hw, s, i, h => by
    unfold PyVal.toElem at h; cases h; exact ⟨_, fresh_date (throughout_here hw)⟩
  | .time n, _, hw, s, i, h => by
    unfold PyVal.toElem at h; cases h; exact ⟨_, fresh_time (throughout_here hw)⟩
  | .datetime n, _, hw, s, i, h => by
    unfold PyVal.toElem at h; cases h
    have := throughout_here hw
    exact ⟨_, fresh_datetime this.1 this.2.1 this.2.2⟩
  | .float n, _, hw, s, i, h => by
    unfold PyVal.toElem at h; cases h; exact ⟨_, fresh_float (throughout_here hw)⟩
  | .none, _, hw, s, i, h => absurd (throughout_here hw) (fun h => h)
  | .list l, hk, hw, s, i, h => by
    unfold KeysOnce at hk
    unfold PyVal.toElem at h
    rcases ht : l.toElems false with e | is <;> rw [ht] at h
    · cases h
    · obtain ⟨i', w, h1, h2⟩ := fresh_array (elems_lit l hk (proper_list hw) false is ht)
      simp only [h1] at h; cases h
      exact ⟨w, h2⟩
  | .dict l, hk, hw, s, i, h => by
    unfold KeysOnce at hk
    unfold PyVal.toElem at h
    rcases ht : l.toChildren s .inline with e | cs <;> rw [ht] at h
    · cases h
    · have hc := children_lit l hk.2 (proper_dict hw) s cs ht
      have hperm := elemOrder_perm s (cs.map Child.noTrail)
      have hn : ((elemOrder s (cs.map Child.noTrail)).map Child.key).Nodup := by
        have := hperm.map Child.key
        rw [this.nodup_iff, List.map_map]
        have h0 : cs.map (Child.key ∘ Child.noTrail) = cs.map Child.key := rfl
        rw [h0, children_keys ht]; exact hk.1
      obtain ⟨c, w, e1, e2⟩ := buildInline_lit (cs := elemOrder s (cs.map Child.noTrail)) (fun ch hm => by
        obtain ⟨ch', hm', rfl⟩ := List.mem_map.1 (hperm.mem_iff.1 hm)
        obtain ⟨w, hw⟩ := hc ch' hm'
        exact ⟨w, fresh_noTrail hw⟩) hn true
      simp only [e1] at h
      cases h
      exact ⟨w, e2⟩
termination_by v => sizeOf v
end

end Tomlkit
