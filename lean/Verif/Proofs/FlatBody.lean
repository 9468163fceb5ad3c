import Verif.Proofs.FlatLines
import Verif.Proofs.LitBuild
import Verif.Proofs.DictRef
import Verif.Proofs.DocText
/-!
# The body of a document of key/value lines

What has to hold of the entries of a document without tables so that its text is read back, and that the operations keep it.
-/
namespace Tomlkit
open _root_.Spec Tomlkit.Spec

/-- the two values are the same Python data, and neither is a table or white space -/
def Again (v i : Item) : Prop :=
  i.isTableLike = false ∧ i.isWhitespace = false ∧ ∃ n0, ∀ n ≥ n0, i.unwrap n = v.unwrap n

/-- the text of the value is read as the same value; if `q`, with nothing lost -/
def Rereads (q : Prop) (v : Item) : Prop :=
  v.isTableLike = false ∧ v.isWhitespace = false ∧ v.isNull = false ∧ v.isComment = false ∧
  ∀ t : Trivia, Spaces t.indent → ReadsTo q (v.setTrivia t).asString (Again v)

theorem unwrap_setTrivia (n : Nat) (v : Item) (t : Trivia) : (v.setTrivia t).unwrap n = v.unwrap n := by
  cases n with
  | zero => rw [Item.unwrap, Item.unwrap]
  | succ n =>
    rcases v with _ | _ | _ | _ | _ | _ | _ | _ | _ | _ | _ | ⟨c, t, x, y, z, w⟩ | ⟨ts, t, nm, p⟩ | _ <;> rfl

theorem again_setTrivia {v i : Item} (t : Trivia) (h : Again v i) : Again (v.setTrivia t) i :=
  ⟨h.1, h.2.1, by obtain ⟨n0, h⟩ := h.2.2; exact ⟨n0, fun n hn => by rw [unwrap_setTrivia]; exact h n hn⟩⟩

theorem Rereads.setTrivia {q : Prop} {v : Item} (h : Rereads q v) (t : Trivia) : Rereads q (v.setTrivia t) := by
  obtain ⟨h1, h2, h3, h4, h5⟩ := h
  refine ⟨by rw [isTableLike_setTrivia]; exact h1, ?_, ?_, ?_, fun t' ht' => ?_⟩
  · cases v <;> first | rfl | cases h2
  · cases v <;> first | rfl | cases h3
  · cases v <;> first | rfl | cases h4
  · rw [setTrivia_twice]
    exact (h5 t' ht').imp fun i hi => again_setTrivia t hi

theorem spaces_ws {b : Str} (h : Spaces b) : ∀ c ∈ b, isWs c = true := fun c hc => by
  have := h c hc
  simp [isWs, this]

/-- a literal is read back -/
theorem LitAny.rereads {q : Prop} {w : PyVal} {v : Item} (h : LitAny q w v) : Rereads q v := by
  obtain ⟨h1, h2, h3⟩ := h.kind
  have hd := h {} (fun c hc => by cases hc)
  have hh : Holds w v := by
    have := holds_setTrivia v.trivia hd.holds
    rw [setTrivia_twice, setTrivia_self] at this
    exact this
  refine ⟨h3, h1, h2, (holds_kind hh).2.1, fun t ht => ?_⟩
  have hr := (h t (spaces_ws ht)).reads.to
  intro n b tail e a l hn hb ht
  obtain ⟨i, st, g1, g2, g3, g4⟩ := hr n b tail e a l hn hb ht
  refine ⟨i, st, g1, fun t' => ?_, g3, g4⟩
  refine ⟨by rw [isTableLike_setTrivia]; exact g3, (means_kind (g2 t')).1, ?_⟩
  obtain ⟨n1, h1⟩ := means_unwrap (g2 t')
  obtain ⟨n2, h2⟩ := holds_unwrap w hh
  exact ⟨n1 + n2, fun n hn => by rw [h1 n (by omega), h2 n (by omega)]⟩

/-- the end of a line, or nothing -/
def NlOf (nl : Str) (cl : Bool) : Prop := (cl = true ∧ (nl = [10] ∨ nl = [13, 10])) ∨ (cl = false ∧ nl = [])

theorem NlOf.eol {nl : Str} {cl : Bool} (h : NlOf nl cl) {t : Str} (ht : cl = true ∨ t = []) : Eol nl t := by
  rcases h with ⟨_, rfl | rfl⟩ | ⟨h, rfl⟩
  · exact .lf t
  · exact .crlf t
  · rcases ht with h' | rfl
    · rw [h] at h'; cases h'
    · exact .eof

/-- the text of blank lines; the last may lack its end -/
inductive BlankText : Str → Bool → Prop
  | nil : BlankText [] true
  | open {s : Str} (h : Spaces s) (hne : s ≠ []) : BlankText s false
  | line {s nl t : Str} {cl : Bool} (h : Spaces s) (hn : NlOf nl true) (ht : BlankText t cl) : BlankText (s ++ (nl ++ t)) cl

/-- the comment without the spaces before it -/
def bareComment (t : Trivia) : Str := t.comment.dropWhile isSpaces

/-- trivia that stay on one line -/
structure LineTrivia (t : Trivia) (cl : Bool) : Prop where
  indent : Spaces t.indent
  cws : Spaces t.commentWs
  comment : ∃ s0 cm, t.comment = s0 ++ cm ∧ Spaces s0 ∧ Cmt cm
  trail : ∃ sp nl, t.trail = sp ++ nl ∧ Spaces sp ∧ NlOf nl cl

/-- an entry of a document of lines, and whether its line is closed -/
inductive FEnt : Entry → Bool → Prop
  | null {t : Trivia} (h : bareComment t = []) : FEnt (.mk none (.null t)) true
  | ws {s : Str} {cl : Bool} (h : BlankText s cl) {f : Bool} (hf : f = true → cl = true) : FEnt (.mk none (.ws s f)) cl
  | cmt {t : Trivia} {cl : Bool} (h : LineTrivia t cl) (hne : bareComment t ≠ []) : FEnt (.mk none (.comment t)) cl
  | kv {k : SKey} {v : Item} {cl : Bool} (hk : KeySep k) (hv : Rereads False v) (h : LineTrivia v.trivia cl) : FEnt (.mk (some k) v) cl

/-- nothing but empty slots -/
def Silent (es : List Entry) : Prop := ∀ e ∈ es, ∃ t, e = .mk none (.null t) ∧ bareComment t = []

/-- the entries of a document of lines: only the last line may be open -/
def FlatBody : List Entry → Prop
  | [] => True
  | e :: r => (∃ cl, FEnt e cl ∧ (cl = true ∨ Silent r)) ∧ FlatBody r

/-- what is known of the values that will be read -/
def knowns (es : List Entry) : List Known :=
  es.flatMap fun e => match e with
    | .mk (some k) v => [⟨k.key, Again v⟩]
    | .mk none _ => []

/-- the spaces before the end of a line -/
def spacesOf (s : Str) : Str := s.takeWhile isSpaces

/-- the comment that will be read -/
def commentOf (t : Trivia) : List Str := if bareComment t = [] then [] else [bareComment t ++ spacesOf t.trail]

/-- the comments that will be read -/
def commentsOf (es : List Entry) : List Str :=
  es.flatMap fun e => commentOf e.v.trivia

theorem spacesOf_trail {sp nl : Str} {cl : Bool} (h : Spaces sp) (hn : NlOf nl cl) : spacesOf (sp ++ nl) = sp := by
  unfold spacesOf
  rcases hn with ⟨_, rfl | rfl⟩ | ⟨_, rfl⟩
  · rw [List.takeWhile_append_of_pos h]; simp [isSpaces]
  · rw [List.takeWhile_append_of_pos h]; simp [isSpaces]
  · rw [List.append_nil]; exact takeWhile_all' h

theorem Spaces.append {a b : Str} (ha : Spaces a) (hb : Spaces b) : Spaces (a ++ b) := fun c hc => by
  rcases List.mem_append.1 hc with h | h
  · exact ha c h
  · exact hb c h

theorem cmt_bare {s0 cm : Str} (hs : Spaces s0) (hc : Cmt cm) : (s0 ++ cm).dropWhile isSpaces = cm := by
  rw [List.dropWhile_append_of_pos hs]
  rcases hc with rfl | ⟨s, rfl, _⟩ <;> rfl

/-- the parts of the trivia -/
theorem LineTrivia.bare {t : Trivia} {cl : Bool} (h : LineTrivia t cl) : ∃ s0, t.comment = s0 ++ bareComment t ∧ Spaces s0 ∧ Cmt (bareComment t) := by
  obtain ⟨s0, cm, h1, h2, h3⟩ := h.comment
  have : bareComment t = cm := by unfold bareComment; rw [h1]; exact cmt_bare h2 h3
  rw [this]
  exact ⟨s0, h1, h2, h3⟩

theorem cmt_append {cm sp : Str} (h : Cmt cm) (hne : cm ≠ []) (hs : Spaces sp) :
    ∃ s, cm ++ sp = 35 :: s ∧ ∀ x ∈ s, isCommentChar x = true := by
  rcases h with rfl | ⟨s, rfl, h⟩
  · exact absurd rfl hne
  · refine ⟨s ++ sp, rfl, fun x hx => ?_⟩
    rcases List.mem_append.1 hx with h' | h'
    · exact h x h'
    · have := hs x h'
      simp only [isSpaces, Bool.or_eq_true, beq_iff_eq] at this
      rcases this with rfl | rfl <;> rfl

theorem silent_text {es : List Entry} (h : Silent es) : entsStr none es = [] ∧ knowns es = [] ∧ FlatBody es := by
  induction es with
  | nil => exact ⟨rfl, rfl, trivial⟩
  | cons e r ih =>
    obtain ⟨t, rfl, ht⟩ := h e (by simp)
    obtain ⟨h1, h2, h3⟩ := ih fun x hx => h x (by simp [hx])
    refine ⟨?_, ?_, ⟨true, .null ht, .inl rfl⟩, h3⟩
    · unfold entsStr at h1 ⊢; rw [List.flatMap_cons, h1]; rfl
    · unfold knowns at h2 ⊢; rw [List.flatMap_cons, h2]; rfl

theorem blankText_lines {s : Str} {cl : Bool} (h : BlankText s cl) {t T : Str} {l : List Known} {cs : List Str} (ht : FLines t T l cs)
    (hc : cl = true ∨ t = []) : FLines (s ++ t) T l cs := by
  induction h with
  | nil => exact ht
  | @«open» s hs hne =>
    rcases hc with h | rfl
    · cases h
    · have := FLines.blank (nl := []) hs .eof (by simpa using hne) ht
      simpa using this
  | @line s nl t' cl hs hn _ ih =>
    rw [List.append_assoc, List.append_assoc]
    refine .blank hs (hn.eol (.inl rfl)) ?_ (ih hc)
    rcases hn with ⟨_, rfl | rfl⟩ | ⟨h, _⟩
    · simp
    · simp
    · cases h

theorem commentsOf_cons (e : Entry) (r : List Entry) : commentsOf (e :: r) = commentOf e.v.trivia ++ commentsOf r := by
  unfold commentsOf; rw [List.flatMap_cons]
theorem knowns_cons_none (v : Item) (r : List Entry) : knowns (.mk none v :: r) = knowns r := by
  unfold knowns; rw [List.flatMap_cons]; rfl
theorem knowns_cons_some (k : SKey) (v : Item) (r : List Entry) : knowns (.mk (some k) v :: r) = ⟨k.key, Again v⟩ :: knowns r := by
  unfold knowns; rw [List.flatMap_cons]; rfl
theorem entsStr_cons (pfx : Option Str) (e : Entry) (r : List Entry) : entsStr pfx (e :: r) = Entry.render pfx none e ++ entsStr pfx r := by
  unfold entsStr; rw [List.flatMap_cons]

/-- the text of such a document is lines -/
theorem FlatBody.linesThen {es : List Entry} (h : FlatBody es) (hd : ((knowns es).map Known.key).Nodup) {T : Str} (hT : T = [] ∨ ∀ e ∈ es, FEnt e true) :
    FLines (entsStr none es ++ T) T (knowns es) (commentsOf es) := by
  induction es with
  | nil => exact .stop
  | cons e r ih =>
    have hr := h.2
    obtain ⟨cl, he, hcl⟩ : ∃ cl, FEnt e cl ∧ (cl = true ∨ entsStr none r ++ T = []) := by
      rcases hT with rfl | hT
      · obtain ⟨cl, he, hc⟩ := h.1
        exact ⟨cl, he, hc.imp_right fun h => by rw [(silent_text h).1]; rfl⟩
      · exact ⟨true, hT e (by simp), .inl rfl⟩
    have ih := fun a b => ih a b (hT.imp_right fun h x hx => h x (by simp [hx]))
    rw [entsStr_cons, commentsOf_cons, List.append_assoc]
    generalize hX : entsStr none r ++ T = X at *
    cases he with
    | @null t ht =>
      rw [knowns_cons_none] at hd ⊢
      have hco : commentOf (Entry.mk none (.null t)).v.trivia = [] := by
        show commentOf t = []
        unfold commentOf; rw [if_pos ht]
      rw [hco]
      exact ih hr hd
    | ws h hf =>
      rw [knowns_cons_none] at hd ⊢
      exact blankText_lines h (ih hr hd) hcl
    | @cmt t cl h hne =>
      rw [knowns_cons_none] at hd ⊢
      obtain ⟨sp, nl, h1, h2, h3⟩ := h.trail
      obtain ⟨s0, b1, b2, b3⟩ := h.bare
      obtain ⟨s, h4, h5⟩ := cmt_append b3 hne h2
      have hco : commentOf (Entry.mk none (.comment t)).v.trivia = [35 :: s] := by
        show commentOf t = _
        unfold commentOf
        rw [if_neg hne, h1, spacesOf_trail h2 h3, h4]
      rw [hco]
      have hx : Entry.render none none (.mk none (.comment t)) ++ X = (t.indent ++ s0) ++ (35 :: (s ++ (nl ++ X))) := by
        have : Entry.render none none (.mk none (.comment t)) = t.indent ++ t.comment ++ t.trail := rfl
        rw [this, h1]
        have : 35 :: (s ++ (nl ++ X)) = (bareComment t ++ sp) ++ (nl ++ X) := by rw [h4]; rfl
        rw [this]
        conv => lhs; rw [b1]
        simp
      rw [hx]
      exact .cmt (h.indent.append b2) h5 (h3.eol hcl) (ih hr hd)
    | @kv k v cl hk hv h =>
      rw [knowns_cons_some] at hd ⊢
      obtain ⟨hnk, hd⟩ := List.nodup_cons.1 hd
      obtain ⟨sp, nl, h1, h2, h3⟩ := h.trail
      obtain ⟨s0, b1, b2, b3⟩ := h.bare
      obtain ⟨hdot, b, sp', h4, h5, h6⟩ := hk
      have hrd := hv.2.2.2.2 v.trivia h.indent
      rw [setTrivia_self] at hrd
      rw [simple_render hv.1]
      have key : ∀ bb cm : Str, bb ++ cm = v.trivia.commentWs ++ v.trivia.comment ++ sp → Spaces bb → Cmt cm →
          (if cm = [] then [] else [cm]) = commentOf v.trivia →
          FLines (simpleHead k v.trivia none ++ (v.asString ++ simpleTail v.trivia) ++ X) T (⟨k.key, Again v⟩ :: knowns r) (commentOf v.trivia ++ commentsOf r) := by
        intro bb cm hbc hbb hcm hco
        have hx : simpleHead k v.trivia none ++ (v.asString ++ simpleTail v.trivia) ++ X =
            v.trivia.indent ++ ((k.orig ++ b) ++ 61 :: (sp' ++ (v.asString ++ (bb ++ (cm ++ (nl ++ X)))))) := by
          have : bb ++ (cm ++ (nl ++ X)) = (bb ++ cm) ++ (nl ++ X) := by simp
          rw [this, hbc]
          unfold simpleHead simpleTail withPrefix
          rw [h4, h1]; simp
        rw [hx, ← hco]
        exact .kv h.indent h5 h6 hrd hbb hcm (h3.eol hcl) (ih hr hd) hnk
      by_cases hce : bareComment v.trivia = []
      · refine key (v.trivia.commentWs ++ v.trivia.comment ++ sp) [] (by simp) ((h.cws.append ?_).append h2) cmt_nil
          (by unfold commentOf; rw [hce]; rfl)
        rw [b1, hce, List.append_nil]; exact b2
      · obtain ⟨s, h7, h8⟩ := cmt_append b3 hce h2
        refine key (v.trivia.commentWs ++ s0) (bareComment v.trivia ++ sp) (by conv => rhs; rw [b1]
                                                                               simp) (h.cws.append b2) (by rw [h7]; exact cmt_some h8) ?_
        unfold commentOf
        rw [if_neg hce, h1, spacesOf_trail h2 h3, if_neg (by rw [h7]; simp)]
@[inherit_doc FlatBody.linesThen]
theorem FlatBody.lines {es : List Entry} (h : FlatBody es) (hd : ((knowns es).map Known.key).Nodup) :
    FLines (entsStr none es) [] (knowns es) (commentsOf es) := by
  have := h.linesThen hd (T := []) (.inl rfl)
  rwa [List.append_nil] at this
end Tomlkit
