import Verif.Proofs.InlineLines
/-!
# Inline tables whose text is read back
-/
namespace Tomlkit
open _root_.Spec Tomlkit.Spec

/-- an entry of an inline table -/
inductive IEnt : Entry → Prop
  | null {t : Trivia} : IEnt (.mk none (.null t))
  | ws {s : Str} {f : Bool} (h : Spaces s) : IEnt (.mk none (.ws s f))
  | kv {k : SKey} {v : Item} (hk : KeySep k) (hv : Rereads True v) (hi : Spaces v.trivia.indent) (hc : v.trivia.comment = [])
      (ht : dropNl v.trivia.trail = []) (hd : v.isDated = false) : IEnt (.mk (some k) v)

/-- an inline table that is written so that it can be read again -/
structure InlineOk (c : Cont) : Prop where
  parsed : c.parsed = true
  wf : c.WF
  keys : c.dict = keysOf c.body
  ents : ∀ e ∈ c.body, IEnt e

theorem reread_text {v : Item} (h : Rereads True v) (t : Trivia) (ht : Spaces t.indent) :
    ∃ c, (v.setTrivia t).asString.getLast? = some c ∧ c ≠ 44 ∧ c ≠ 10 := by
  obtain ⟨i, st, h1, _, _, _, _, h5, h6⟩ := h.2.2.2.2 t ht _ [] [93] [] [] [] (Nat.le_refl _) Blank.nil (.inr ⟨93, [], rfl, rfl⟩)
  have hv := keeps_fact ((value_keeps _).1 _) h1 (h6 trivial)
  have hx := hv.text
  unfold Ate at hx
  simp only [List.nil_append] at hx h5
  have hcw : i.trivia.commentWs = [] := by rcases h5 with ⟨h, _⟩ | ⟨h, _⟩ <;> exact h
  have hr : st.rest = [93] := by rcases h5 with ⟨_, h⟩ | ⟨_, h⟩ <;> exact h
  rw [hcw, hr, List.append_nil] at hx
  have := List.append_cancel_right hx
  rw [this]
  exact hv.last

/-- the text of a pair -/
theorem IEnt.piece {k : SKey} {v : Item} (h : IEnt (.mk (some k) v)) : ∃ K sp, KeyReads K k.key ∧ Spaces sp ∧
    (Entry.mk (some k) v).inlinePiece = v.trivia.indent ++ (K ++ 61 :: (sp ++ v.asString)) := by
  cases h with
  | kv hk hv hi hc ht hd =>
    obtain ⟨hdot, b, sp, h1, h2, h3⟩ := hk
    refine ⟨k.orig ++ b, sp, h2, h3, ?_⟩
    show v.trivia.indent ++ (k.orig ++ ((if k.dotted then [46] else []) ++ (k.sep ++ (v.asString ++ (v.trivia.comment ++ dropNl v.trivia.trail))))) = _
    rw [hdot, hc, ht, h1]
    simp

theorem asString_self {v : Item} : (v.setTrivia v.trivia).asString = v.asString := by rw [setTrivia_self]

theorem IEnt.pieceOk {e : Entry} (h : IEnt e) : PieceOk e := by
  cases h with
  | null => exact ⟨(fun h => by cases h), (fun h => by cases h)⟩
  | @ws s f hs =>
    refine ⟨?_, by intro h; cases h⟩
    show s.getLast? ≠ some 44
    intro h0
    have := hs 44 (List.mem_of_getLast? h0)
    revert this; decide
  | @kv k v hk hv hi hc ht hd =>
    obtain ⟨K, sp, _, _, hp⟩ := (IEnt.kv hk hv hi hc ht hd).piece
    obtain ⟨c, h1, h2, _⟩ := reread_text hv v.trivia hi
    rw [asString_self] at h1
    have hl : (Entry.mk (some k) v).inlinePiece.getLast? = some c := by
      rw [hp, show v.trivia.indent ++ (K ++ 61 :: (sp ++ v.asString)) = (v.trivia.indent ++ K ++ 61 :: sp) ++ v.asString by simp, List.getLast?_append, h1]
      rfl
    refine ⟨by rw [hl]; intro h; cases h; exact h2 rfl, fun _ h0 => ?_⟩
    rw [h0] at hl; cases hl

theorem spaces_iline {s : Str} (hs : Spaces s) {b : Bool} {t : Str} {l : List Known} (h : ILine b t l) : ILine b (s ++ t) l := by
  induction s with
  | nil => exact h
  | cons c s ih => exact .sp (hs c (by simp)) (ih fun x hx => hs x (by simp [hx]))

theorem full_spaces {es : List Entry} (h : ∀ e ∈ es, IEnt e) (hk : anyKey es = false) : Spaces (full es) ∧ knowns es = [] := by
  induction es with
  | nil => exact ⟨Spaces.nil, rfl⟩
  | cons e r ih =>
    simp only [anyKey, List.any_cons, Bool.or_eq_false_iff] at hk
    obtain ⟨i1, i2⟩ := ih (fun x hx => h x (by simp [hx])) hk.2
    have he := h e (by simp)
    cases he with
    | null => exact ⟨by simpa [full, Entry.inlinePiece, Item.asString, Entry.key] using i1, i2⟩
    | ws hs => exact ⟨by rw [full]; exact hs.append i1, i2⟩
    | kv => cases hk.1

theorem again_dated {v i : Item} (h : Again v i) (hd : v.isDated = false) : i.isDated = false := by
  obtain ⟨h1, h2, n0, h3⟩ := h
  have h4 := h3 (n0 + 1) (by omega)
  rcases hi : i.isDated with _ | _
  · rfl
  exfalso
  have hval : ∃ w, i.unwrap (n0 + 1) = .ok w ∧ (∃ d, w = .date d ∨ ∃ d, w = .time d ∨ ∃ d, w = .datetime d) := by
    cases i <;> first | (cases hi; done) | skip
    · exact ⟨_, by rw [Item.unwrap], ⟨⟨0, 0, 0⟩, .inr ⟨⟨0, 0, 0, 0⟩, .inr ⟨_, rfl⟩⟩⟩⟩
    · exact ⟨_, by rw [Item.unwrap], ⟨_, .inl rfl⟩⟩
    · exact ⟨_, by rw [Item.unwrap], ⟨⟨0, 0, 0⟩, .inr ⟨_, .inl rfl⟩⟩⟩
  obtain ⟨w, hw, hc⟩ := hval
  rw [hw] at h4
  have hmap : ∀ {α : Type} {x : Except Err α} {f : α → PyVal}, (∀ a, f a ≠ w) → x.map f ≠ .ok w := by
    intro α x f hf h
    cases x with
    | error => cases h
    | ok a => exact hf a (by injection h)
  have hl : ∀ a, PyVal.list a ≠ w := by rintro a rfl; rcases hc with ⟨_, h | ⟨_, h | ⟨_, h⟩⟩⟩ <;> cases h
  have hdi : ∀ a, PyVal.dict a ≠ w := by rintro a rfl; rcases hc with ⟨_, h | ⟨_, h | ⟨_, h⟩⟩⟩ <;> cases h
  cases v <;> first
    | (cases hd; done)
    | (rw [Item.unwrap] at h4; exact hmap hl h4.symm)
    | (rw [Item.unwrap] at h4; exact hmap hdi h4.symm)
    | (rw [Item.unwrap] at h4; injection h4 with h4; rw [h4] at hc; rcases hc with ⟨_, h | ⟨_, h | ⟨_, h⟩⟩⟩ <;> cases h)

/-- the entries are written as the text of an inline table -/
theorem ients_line : ∀ {es : List Entry} {b : Bool}, (∀ e ∈ es, IEnt e) → (keysOf es).Nodup → (b = true → anyKey es = true) →
    ILine b (full es ++ [125]) (knowns es)
  | [], b, _, _, hb => by
    rcases b with _ | _
    · exact .close
    · exact absurd (hb rfl) (by decide)
  | e :: r, b, h, hn, hb => by
    have hr : ∀ x ∈ r, IEnt x := fun x hx => h x (by simp [hx])
    have he := h e (by simp)
    cases he with
    | null =>
      have := ients_line (b := b) hr hn hb
      exact this
    | @ws s f hs =>
      have := ients_line (b := b) hr hn hb
      have := spaces_iline hs this
      rw [← List.append_assoc] at this
      exact this
    | @kv k v hk hv hi hc ht hd =>
      obtain ⟨K, sp, h1, h2, h3⟩ := (IEnt.kv hk hv hi hc ht hd).piece
      have hrd := hv.2.2.2.2 v.trivia hi
      rw [asString_self] at hrd
      have hn : (k.key :: keysOf r).Nodup := hn
      rw [List.nodup_cons] at hn
      rw [full, h3]
      show ILine b _ (⟨k.key, Again v⟩ :: knowns r)
      rcases hk2 : anyKey r with _ | _
      · obtain ⟨s1, s2⟩ := full_spaces hr hk2
        rw [s2]
        have := spaces_iline hi (ILine.last (b := b) h1 h2 hrd (fun i hi => again_dated hi hd) s1)
        simpa [Entry.key] using this
      · have := spaces_iline hi (ILine.more (b := b) h1 h2 hrd (fun i hi => again_dated hi hd) (ients_line (b := true) hr hn.2 fun _ => hk2) hn.1)
        simpa [Entry.key] using this

theorem IEnt.plain {e : Entry} (h : IEnt e) : e.v.isTableLike = false := by
  cases h with
  | null => rfl
  | ws => rfl
  | kv _ hv _ _ _ _ => exact hv.1

theorem InlineOk.flat {c : Cont} (h : InlineOk c) : Flat c := fun e he => (h.ents e he).plain

/-- where the keys are -/
theorem InlineOk.at {c : Cont} (h : InlineOk c) {k : Str} (hk : k ∈ c.dict) : ∃ n key v, mapGet k c.map = some [n] ∧
    c.body[n]? = some (.mk (some key) v) ∧ key.key = k ∧ c.item k = .ok (.inl v) := by
  obtain ⟨is, hm⟩ := Option.isSome_iff_exists.1 ((h.wf.dictMem k).1 hk)
  obtain ⟨n, key, v, rfl, hb, hkk, _⟩ := single_of_plain h.wf (flat_holds h.flat) hm
  exact ⟨n, key, v, hm, hb, hkk, item_single.2 ⟨n, _, hm, hb, rfl⟩⟩

/-- The text of such an inline table is read as the same data. -/
theorem InlineOk.rereads {c : Cont} (h : InlineOk c) (t : Trivia) : Rereads True (.inline c t false) := by
  refine ⟨rfl, rfl, rfl, rfl, fun t' _ => ?_⟩
  show ReadsTo True (c.inlineString false) _
  have hline := ients_line (b := false) h.ents (by have := h.wf.dictNodup; rw [h.keys] at this; exact this) (by intro h; cases h)
  rw [inlineString_full fun e he => (h.ents e he).pieceOk]
  have e0 : [123] ++ full c.body ++ [125] = 123 :: (full c.body ++ [125]) := by simp
  rw [e0]
  generalize full c.body ++ [125] = T at hline
  intro n b tail e a lg hlen hb ht
  obtain ⟨n, rfl⟩ : ∃ k, n = k + 1 := ⟨n - 1, by omega⟩
  obtain ⟨c', st, g1, g2, g3, ⟨cs, g4⟩, gq⟩ := iline_reads _ (Nat.le_refl _) hline n (b ++ tail) (Cont.empty true) [] [123] a lg
    (by simp at hlen; omega) ⟨[], fbody_empty⟩ (by intro k _ hk; cases hk)
  refine ⟨.inline c' {} false, st, ?_, fun t2 => ?_, rfl, rfl, g3, .inl ⟨rfl, g2⟩, fun _ => gq⟩
  · rw [parseValue]
    have hne : T ++ (b ++ tail) ≠ [] := by
      have := hline.mem
      intro h0
      rw [(List.append_eq_nil_iff.1 h0).1] at this; cases this
    rw [mark_bind, getSt_bind, List.cons_append, St.cur_cons, if_neg (by omega), if_neg (by omega), if_neg (by omega),
      if_neg (by omega), if_neg (by omega), if_pos rfl, stepE_bind_cons' _ _ _ _ _ _ hne, List.nil_append, P.bind_def]
    rw [show (if false = true then some true else none : Option Bool) = none from rfl] at g1
    rw [g1]
    rfl
  · refine ⟨rfl, rfl, ?_⟩
    have hdict : c'.dict = c.dict := by rw [g4.dict, h.keys]; rfl
    obtain ⟨n0, h6⟩ := unwrapKeys_same (c := c) (c' := c') c.dict fun k hk => by
      obtain ⟨n, key, v, q1, q2, q3, q4⟩ := h.at hk
      obtain ⟨i, q5, q6⟩ := g4.known ⟨key.key, Again v⟩ (by rw [List.nil_append]; exact mem_knowns.2 ⟨key, v, List.mem_of_getElem? q2, rfl⟩)
      exact ⟨v, i, q4, by rw [← q3]; exact q5, q6.2.2⟩
    refine ⟨n0 + 2, fun m hm => ?_⟩
    obtain ⟨m, rfl⟩ : ∃ k, m = k + 2 := ⟨m - 2, by omega⟩
    show (Cont.unwrap (m + 1) c').map PyVal.dict = (Cont.unwrap (m + 1) c).map PyVal.dict
    rw [Cont.unwrap, Cont.unwrap, hdict, h6 m (by omega)]

end Tomlkit
