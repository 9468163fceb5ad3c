import Verif.Proofs.FlatBody
/-!
# Editing a document of key/value lines keeps its text readable
-/
namespace Tomlkit
open _root_.Spec Tomlkit.Spec

/-- the names of the entries, in order -/
def keysOf (es : List Entry) : List Str := (knowns es).map Known.key

theorem knowns_append (a b : List Entry) : knowns (a ++ b) = knowns a ++ knowns b := by
  unfold knowns; rw [List.flatMap_append]
theorem keysOf_append (a b : List Entry) : keysOf (a ++ b) = keysOf a ++ keysOf b := by
  unfold keysOf; rw [knowns_append, List.map_append]
theorem commentsOf_append (a b : List Entry) : commentsOf (a ++ b) = commentsOf a ++ commentsOf b := by
  unfold commentsOf; rw [List.flatMap_append]

theorem mem_knowns {es : List Entry} {x : Known} : x ∈ knowns es ↔ ∃ k v, Entry.mk (some k) v ∈ es ∧ x = ⟨k.key, Again v⟩ := by
  unfold knowns
  rw [List.mem_flatMap]
  constructor
  · rintro ⟨⟨_ | k, v⟩, he, hx⟩
    · cases hx
    · simp only [List.mem_singleton] at hx
      exact ⟨k, v, he, hx⟩
  · rintro ⟨k, v, he, rfl⟩
    exact ⟨_, he, by simp⟩

/-- a document of key/value lines -/
structure FlatDoc (c : Cont) : Prop where
  wf : c.WF
  body : FlatBody c.body
  parsed : c.parsed = false
  keys : c.dict = keysOf c.body

theorem FlatBody.mem {es : List Entry} (h : FlatBody es) {e : Entry} (he : e ∈ es) : ∃ cl, FEnt e cl := by
  induction es with
  | nil => cases he
  | cons x r ih =>
    rcases List.mem_cons.1 he with rfl | he
    · obtain ⟨cl, h1, _⟩ := h.1; exact ⟨cl, h1⟩
    · exact ih h.2 he

theorem FEnt.plain {e : Entry} {cl : Bool} (h : FEnt e cl) : e.v.isTableLike = false := by
  cases h with
  | null => rfl
  | ws => rfl
  | cmt => rfl
  | kv _ hv _ => exact hv.1

theorem FlatBody.flat {es : List Entry} (h : FlatBody es) : ∀ e ∈ es, e.v.isTableLike = false := fun e he => by
  obtain ⟨cl, h1⟩ := h.mem he
  exact h1.plain

theorem FlatDoc.flat {c : Cont} (h : FlatDoc c) : Flat c := h.body.flat

/-- equal values under equal keys: equal data -/
theorem unwrapKeys_same {c c' : Cont} (ks : List Str) (h : ∀ k ∈ ks, ∃ v i, c.item k = .ok (.inl v) ∧ c'.item k = .ok (.inl i) ∧
    ∃ n0, ∀ n ≥ n0, i.unwrap n = v.unwrap n) : ∃ n0, ∀ n ≥ n0, unwrapKeys n c' ks = unwrapKeys n c ks := by
  induction ks with
  | nil => exact ⟨0, fun n _ => by cases n <;> rw [unwrapKeys, unwrapKeys]⟩
  | cons k r ih =>
    obtain ⟨n1, h1⟩ := ih fun x hx => h x (by simp [hx])
    obtain ⟨v, i, h2, h3, n2, h4⟩ := h k (by simp)
    refine ⟨n1 + n2 + 2, fun n hn => ?_⟩
    obtain ⟨m, rfl⟩ : ∃ m, n = m + 2 := ⟨n - 2, by omega⟩
    rw [unwrapKeys, unwrapKeys, unwrapKey, unwrapKey, h2, h3]
    dsimp only
    rw [h4 m (by omega), h1 (m + 1) (by omega)]

/-- The text of a document of lines is read, as the same mapping. -/
theorem FlatDoc.reads {c : Cont} (h : FlatDoc c) : ∃ c', parse (dumps c) = .ok c' ∧ c'.dict = c.dict ∧
    (∀ k ∈ c.dict, ∃ v i, c.item k = .ok (.inl v) ∧ c'.item k = .ok (.inl i) ∧ Again v i) ∧ c'.comments = commentsOf c.body ∧
    ∃ n0, ∀ n ≥ n0, c'.unwrap n = c.unwrap n := by
  have hl := h.body.lines (by have := h.wf.dictNodup; rw [h.keys] at this; exact this)
  have hdump : dumps c = entsStr none c.body := by
    rw [← bodyStr_ents]; cases c; rfl
  obtain ⟨c', h1, h2, h3, h4, h5⟩ := flat_reads hl
    (fun x hx i hi => by obtain ⟨k, v, _, rfl⟩ := mem_knowns.1 hx; exact hi.2.1)
    (fun x hx i hi => by obtain ⟨k, v, _, rfl⟩ := mem_knowns.1 hx; exact hi.1)
  have hitem : ∀ k ∈ c.dict, ∃ v i, c.item k = .ok (.inl v) ∧ c'.item k = .ok (.inl i) ∧ Again v i := by
    intro k hk
    obtain ⟨is, hm⟩ := Option.isSome_iff_exists.1 ((h.wf.dictMem k).1 hk)
    obtain ⟨n, key, v, rfl, hb, hkk, _⟩ := single_of_plain h.wf (flat_holds h.flat) hm
    obtain ⟨i, h6, h7⟩ := h4 ⟨key.key, Again v⟩ (mem_knowns.2 ⟨key, v, List.mem_of_getElem? hb, rfl⟩)
    refine ⟨v, i, item_single.2 ⟨n, _, hm, hb, rfl⟩, ?_, h7⟩
    rw [← hkk]; exact h6
  have hdict : c'.dict = c.dict := by rw [h3, h.keys]; rfl
  refine ⟨c', by rw [hdump]; exact h1, hdict, hitem, h5, ?_⟩
  obtain ⟨n0, h6⟩ := unwrapKeys_same (c := c) (c' := c') c.dict fun k hk => by
    obtain ⟨v, i, q1, q2, q3⟩ := hitem k hk
    exact ⟨v, i, q1, q2, q3.2.2⟩
  refine ⟨n0 + 1, fun n hn => ?_⟩
  obtain ⟨m, rfl⟩ : ∃ m, n = m + 1 := ⟨n - 1, by omega⟩
  rw [Cont.unwrap, Cont.unwrap, hdict]
  exact h6 m (by omega)

/-! ## Changing one entry -/

/-- every line is closed -/
def Shut (es : List Entry) : Prop := ∀ e ∈ es, FEnt e true

theorem Shut.append {a b : List Entry} (ha : Shut a) (hb : FlatBody b) : FlatBody (a ++ b) := by
  induction a with
  | nil => exact hb
  | cons e r ih => exact ⟨⟨true, ha e (by simp), .inl rfl⟩, ih fun x hx => ha x (by simp [hx])⟩

theorem Shut.cons {e : Entry} {a : List Entry} (ha : Shut a) (he : FEnt e true) : Shut (e :: a) := fun x hx => by
  rcases List.mem_cons.1 hx with rfl | hx
  · exact he
  · exact ha x hx

theorem Shut.set {a : List Entry} (ha : Shut a) {i : Nat} {x : Entry} (h : a[i]? = some x) {y : Entry} (hy : FEnt x true → FEnt y true) :
    Shut (a.set i y) := fun z hz => by
  rcases List.mem_or_eq_of_mem_set hz with hz | rfl
  · exact ha z hz
  · exact hy (ha x (List.mem_of_getElem? h))

theorem Shut.flat {a : List Entry} (ha : Shut a) : FlatBody a := by
  have := ha.append (b := []) trivial
  rwa [List.append_nil] at this

theorem FlatBody.right {a b : List Entry} (h : FlatBody (a ++ b)) : FlatBody b := by
  induction a with
  | nil => exact h
  | cons e r ih => exact ih h.2

theorem Silent.shut {es : List Entry} (h : Silent es) : Shut es := fun e he => by
  obtain ⟨t, rfl, ht⟩ := h e he
  exact .null ht

/-- before an entry that is no empty slot every line is closed -/
theorem FlatBody.left {a b : List Entry} {e : Entry} (h : FlatBody (a ++ e :: b)) (he : ∀ t, e ≠ .mk none (.null t)) : Shut a := by
  induction a with
  | nil => intro x hx; cases hx
  | cons x r ih =>
    obtain ⟨⟨cl, h1, h2⟩, h3⟩ := h
    intro y hy
    rcases List.mem_cons.1 hy with rfl | hy
    · rcases h2 with rfl | h2
      · exact h1
      · obtain ⟨t, ht, _⟩ := h2 e (by simp)
        exact absurd ht (he t)
    · exact ih h3 y hy

theorem set_split {α : Type} {l : List α} {i : Nat} {x : α} (h : l[i]? = some x) (y : α) :
    ∃ a b, l = a ++ x :: b ∧ l.set i y = a ++ y :: b ∧ a.length = i := by
  have hlt := (List.getElem?_eq_some_iff.1 h).1
  have hx := (List.getElem?_eq_some_iff.1 h).2
  refine ⟨l.take i, l.drop (i + 1), ?_, ?_, by simp; omega⟩
  · rw [← hx, List.getElem_cons_drop, List.take_append_drop]
  · rw [List.set_eq_take_append_cons_drop, if_pos hlt]

/-- an entry may be replaced by one that closes its line as well as it did -/
theorem FlatBody.replace {a b : List Entry} {e e' : Entry} (h : FlatBody (a ++ e :: b)) (he : ∀ t, e ≠ .mk none (.null t))
    (hc : ∀ cl, FEnt e cl → FEnt e' cl ∨ FEnt e' true) : FlatBody (a ++ e' :: b) := by
  refine (h.left he).append ?_
  obtain ⟨⟨cl, h1, h2⟩, h3⟩ := h.right
  rcases hc cl h1 with h4 | h4
  · exact ⟨⟨cl, h4, h2⟩, h3⟩
  · exact ⟨⟨true, h4, .inl rfl⟩, h3⟩

theorem NlOf.nl {nl : Str} {cl : Bool} (h : NlOf nl cl) {sp : Str} (hs : Spaces sp) : hasNl (sp ++ nl) = cl := by
  have h0 : sp.contains 10 = false := by
    rw [← Bool.not_eq_true, List.contains_iff_mem]
    intro hm
    have := hs 10 hm
    cases this
  unfold hasNl
  rcases h with ⟨rfl, rfl | rfl⟩ | ⟨rfl, rfl⟩
  · simp
  · simp
  · rw [List.append_nil]; exact h0

theorem LineTrivia.close {t : Trivia} (h : LineTrivia t false) : LineTrivia { t with trail := t.trail ++ [10] } true := by
  obtain ⟨sp, nl, h1, h2, h3⟩ := h.trail
  refine ⟨h.indent, h.cws, h.comment, sp, [10], ?_, h2, .inl ⟨rfl, .inl rfl⟩⟩
  rcases h3 with ⟨h, _⟩ | ⟨_, rfl⟩
  · cases h
  · show t.trail ++ [10] = _
    rw [h1]; simp

theorem LineTrivia.hasNl {t : Trivia} {cl : Bool} (h : LineTrivia t cl) : hasNl t.trail = cl := by
  obtain ⟨sp, nl, h1, h2, h3⟩ := h.trail
  rw [h1]; exact h3.nl h2

/-- the line of an entry is closed -/
def closeEntry (e : Entry) : Entry :=
  if e.v.isWhitespace || endsWithWs e.v || hasNl e.v.trivia.trail then e
  else .mk e.key (e.v.setTrivia { e.v.trivia with trail := e.v.trivia.trail ++ [10] })

/-- entries passed over to find the end of the document -/
def Skipped (e : Entry) : Prop := (∃ t, e.v = .null t) ∨ ∃ s, e.v = .ws s false

theorem endsWithWs_plain {v : Item} (h : v.isTableLike = false) : endsWithWs v = false := by
  rcases v with _ | _ | _ | _ | _ | _ | _ | _ | _ | _ | _ | tb | ⟨ts, t, nm, p⟩ | _ <;>
    first | rfl | (simp [Item.isTableLike, Item.isTable, Item.isAoT] at h; done)

theorem FEnt.close {e : Entry} {cl : Bool} (h : FEnt e cl) (hs : ¬ Skipped e) : FEnt (closeEntry e) true := by
  cases h with
  | @null t _ => exact absurd (.inl ⟨t, rfl⟩) hs
  | @ws s cl h f hf =>
    have hf' : f = true := by
      cases f with
      | true => rfl
      | false => exact absurd (.inr ⟨s, rfl⟩) hs
    have : closeEntry (.mk none (.ws s f)) = .mk none (.ws s f) := by
      unfold closeEntry; rw [if_pos]; rfl
    rw [this]
    have := hf hf'
    subst this
    exact .ws h hf
  | @cmt t cl h hne =>
    unfold closeEntry
    have h0 : hasNl (Entry.mk none (.comment t)).v.trivia.trail = cl := h.hasNl
    rw [h0]
    cases cl with
    | true => rw [if_pos (by simp)]; exact .cmt h hne
    | false => exact .cmt h.close hne
  | @kv k v cl hk hv h =>
    unfold closeEntry
    have h0 : hasNl (Entry.mk (some k) v).v.trivia.trail = cl := h.hasNl
    have h1 : (Entry.mk (some k) v).v.isWhitespace = false := hv.2.1
    have h2 : endsWithWs (Entry.mk (some k) v).v = false := endsWithWs_plain hv.1
    rw [h0, h1, h2]
    cases cl with
    | true => rw [if_pos (by simp)]; exact .kv hk hv h
    | false =>
      rw [if_neg (by simp)]
      refine .kv hk (hv.setTrivia _) ?_
      rw [Entry.v_mk, setTrivia_trivia hv.2.1]
      exact h.close

/-! ## Where a new key goes -/

theorem lastBeforeTable_flat {es : List Entry} (hf : ∀ e ∈ es, e.v.isTableLike = false) : ∀ i last : Nat,
    (lastBeforeTable es i last = last ∧ ∀ e ∈ es, Skipped e) ∨
    ∃ a e b, es = a ++ e :: b ∧ lastBeforeTable es i last = i + a.length + 1 ∧ ¬ Skipped e ∧ ∀ x ∈ b, Skipped x := by
  induction es with
  | nil => intro i last; exact .inl ⟨rfl, (by intro e he; cases he)⟩
  | cons x r ih =>
    intro i last
    have ih := ih fun e he => hf e (by simp [he])
    by_cases hx : Skipped x
    · have hstep : lastBeforeTable (x :: r) i last = lastBeforeTable r (i + 1) last := by
        rcases x with ⟨k, v⟩
        rcases hx with ⟨t, h⟩ | ⟨s, h⟩ <;> simp only [Entry.v_mk] at h <;> subst h <;> rfl
      rw [hstep]
      rcases ih (i + 1) last with ⟨h1, h2⟩ | ⟨a, e, b, h1, h2, h3, h4⟩
      · refine .inl ⟨h1, fun e he => ?_⟩
        rcases List.mem_cons.1 he with rfl | he
        · exact hx
        · exact h2 e he
      · exact .inr ⟨x :: a, e, b, by rw [h1]; rfl, by rw [h2, List.length_cons]; omega, h3, h4⟩
    · have hstep : lastBeforeTable (x :: r) i last = lastBeforeTable r (i + 1) (i + 1) := by
        have hp := hf x (by simp)
        rcases x with ⟨k, v⟩
        rw [Entry.v_mk] at hp
        rcases v with ⟨s, _ | _⟩ | _ | _ | _ | _ | _ | _ | _ | _ | _ | _ | tb | ⟨ts, t, nm, p⟩ | t <;>
          first
            | rfl
            | (exact absurd (.inr ⟨_, rfl⟩) hx)
            | (exact absurd (.inl ⟨_, rfl⟩) hx)
            | (simp [Item.isTableLike, Item.isTable, Item.isAoT] at hp; done)
      rw [hstep]
      rcases ih (i + 1) (i + 1) with ⟨h1, h2⟩ | ⟨a, e, b, h1, h2, h3, h4⟩
      · exact .inr ⟨[], x, r, rfl, by rw [h1, List.length_nil], hx, h2⟩
      · exact .inr ⟨x :: a, e, b, by rw [h1]; rfl, by rw [h2, List.length_cons]; omega, h3, h4⟩

theorem addTrailNl_split (a b : List Entry) (e : Entry) : addTrailNl a.length (a ++ e :: b) = a ++ closeEntry e :: b := by
  unfold addTrailNl
  induction a with
  | nil => simp [closeEntry]
  | cons x a ih => rw [List.cons_append, List.length_cons, List.modify_succ_cons, ih]; rfl

theorem insertIdx_split {α : Type} (a b : List α) (x : α) : (a ++ b).insertIdx a.length x = a ++ x :: b := by
  induction a with
  | nil => simp
  | cons y a ih => rw [List.cons_append, List.length_cons, List.insertIdx_succ_cons, ih]; rfl

/-- the body after a new key -/
theorem appendTail_body {c c' : Cont} (hp : c.parsed = false) (hf : Flat c) {k : SKey} {v : Item} (hv : v.isTableLike = false)
    (hk : mapGet k.key c.map = none) (h : c.appendTail (some k) v = .ok c') :
    (c'.parsed = false ∧ c'.dict = dictSet k.key c.dict) ∧
    (((∀ e ∈ c.body, Skipped e) ∧ c'.body = .mk (some k) v :: c.body) ∨
    ∃ a e b, c.body = a ++ e :: b ∧ ¬ Skipped e ∧ (∀ x ∈ b, Skipped x) ∧ c'.body = a ++ closeEntry e :: .mk (some k) v :: b) := by
  unfold Cont.appendTail at h
  dsimp only at h
  by_cases he : c.body = []
  · rw [if_neg (by simp [he]), rawAppend_new_eq hv hk] at h
    cases h
    exact ⟨⟨hp, rfl⟩, .inl ⟨by rw [he]; simp, by rw [he]; rfl⟩⟩
  rw [if_pos (by simp [he, hp, hv])] at h
  have h0 := lastBeforeTable_flat hf 0 0
  unfold Cont.lastIndexBeforeTable at h
  rcases h0 with ⟨h1, h2⟩ | ⟨a, e, b, h1, h2, h3, h4⟩
  · rw [h1] at h
    have hpos : 0 < c.body.length := List.length_pos_iff.2 he
    rw [if_pos hpos] at h
    unfold Cont.insertAt at h
    rw [if_neg (by omega)] at h
    dsimp only at h
    cases h
    refine ⟨⟨hp, rfl⟩, .inl ⟨h2, ?_⟩⟩
    simp
  · rw [h2] at h
    refine ⟨?_, .inr ⟨a, e, b, h1, h3, h4, ?_⟩⟩
    · split at h
      · unfold Cont.insertAt at h
        split at h
        · cases h
        · cases h; exact ⟨hp, rfl⟩
      · rw [rawAppend_new_eq hv (c := .mk (addTrailNl (c.body.length - 1) c.body) c.map c.dict c.parsed c.tableKeys) hk] at h
        cases h
        exact ⟨hp, rfl⟩
    · split at h
      · rename_i hlt
        unfold Cont.insertAt at h
        rw [if_neg (by omega)] at h
        dsimp only at h
        cases h
        rw [Cont.body_mk, if_pos (by simp [hv])]
        have : 0 + a.length + 1 - 1 = a.length := by omega
        rw [this, h1, addTrailNl_split]
        have h5 : 0 + a.length + 1 = (a ++ [closeEntry e]).length := by simp
        have h6 : a ++ closeEntry e :: b = (a ++ [closeEntry e]) ++ b := by simp
        rw [h5, h6, insertIdx_split]
        simp
      · rename_i hlt
        rw [rawAppend_new_eq hv (c := .mk (addTrailNl (c.body.length - 1) c.body) c.map c.dict c.parsed c.tableKeys) hk] at h
        cases h
        have hb : b = [] := by
          rw [← List.length_eq_zero_iff]
          have := congrArg List.length h1
          simp at this; omega
        subst hb
        rw [Cont.body_mk]
        have : c.body.length - 1 = a.length := by rw [h1]; simp
        rw [this, h1, addTrailNl_split]
        simp

/-- a value that can be put into a document of lines: its text is read back, and its trivia end its line -/
structure Puttable (v : Item) : Prop where
  reads : Rereads False v
  line : LineTrivia v.trivia true

theorem keysOf_skipped {es : List Entry} (h : FlatBody es) (hs : ∀ e ∈ es, Skipped e) : knowns es = [] := by
  induction es with
  | nil => rfl
  | cons e r ih =>
    have ih := ih h.2 fun x hx => hs x (by simp [hx])
    obtain ⟨⟨cl, h1, _⟩, _⟩ := h
    have hse := hs e (by simp)
    cases h1 with
    | null => rw [knowns_cons_none, ih]
    | ws => rw [knowns_cons_none, ih]
    | cmt => rw [knowns_cons_none, ih]
    | @kv k v cl hk hv h =>
      rcases hse with ⟨t, h⟩ | ⟨s, h⟩ <;> rw [Entry.v_mk] at h <;> subst h
      · cases hv.2.2.1
      · cases hv.2.1

theorem closeEntry_key (e : Entry) : (closeEntry e).key = e.key := by
  unfold closeEntry
  split <;> rfl

theorem keysOf_single (e : Entry) : keysOf [e] = match e.key with
    | some k => [k.key]
    | none => [] := by
  rcases e with ⟨_ | k, v⟩ <;> rfl

theorem FlatDoc.new {c c' : Cont} (h : FlatDoc c) {k : Str} (hk : mapGet k c.map = none) {v : Item} (hv : Puttable v)
    (hr : Cont.append true c (some (.single (mkKey k))) v = .ok (c', false)) : FlatDoc c' ∧ (Shut c.body → Shut c'.body) := by
  have hk' : mapGet (mkKey k).key c.map = none := by rw [mkKey_key]; exact hk
  have hw' : c'.WF := h.wf.append hr
  rw [append_plain_new hv.reads.1 hk'] at hr
  rcases ht : c.appendTail (some (mkKey k)) v with e | c1 <;> rw [ht] at hr <;> cases hr
  obtain ⟨⟨h1, h2⟩, h3⟩ := appendTail_body h.parsed h.flat hv.reads.1 hk' ht
  rw [mkKey_key, dictSet_new (WF.not_mem_dict h.wf hk), h.keys] at h2
  have hnew : FEnt (.mk (some (mkKey k)) v) true := .kv (keySep_mkKey k) hv.reads hv.line
  rcases h3 with ⟨hs, hb⟩ | ⟨a, e, b, hb, he, hs, hb'⟩
  · refine ⟨⟨hw', by rw [hb]; exact ⟨⟨true, hnew, .inl rfl⟩, h.body⟩, h1, ?_⟩, fun hs' => by rw [hb]; exact hs'.cons hnew⟩
    have h0 := keysOf_skipped h.body hs
    rw [h2, hb]
    unfold keysOf
    rw [knowns_cons_some, h0, mkKey_key]; rfl
  · have hbody := h.body
    rw [hb] at hbody
    have hen : ∀ t, e ≠ .mk none (.null t) := fun t h0 => he (.inl ⟨t, by rw [h0]; rfl⟩)
    obtain ⟨⟨cl, e1, _⟩, e3⟩ := hbody.right
    refine ⟨⟨hw', ?_, h1, ?_⟩, fun hs' => ?_⟩
    · rw [hb']
      refine (hbody.left hen).append ⟨⟨true, e1.close he, .inl rfl⟩, ⟨true, hnew, .inl rfl⟩, e3⟩
    · have h0 : keysOf b = [] := by unfold keysOf; rw [keysOf_skipped e3 hs]; rfl
      have e4 : a ++ e :: b = a ++ ([e] ++ b) := by simp
      have e5 : a ++ closeEntry e :: .mk (some (mkKey k)) v :: b = a ++ ([closeEntry e] ++ ([.mk (some (mkKey k)) v] ++ b)) := by simp
      rw [h2, hb, hb', e4, e5]
      simp only [keysOf_append, h0, keysOf_single, closeEntry_key]
      show _ = _ ++ (_ ++ ([(mkKey k).key] ++ []))
      rw [mkKey_key]; simp
    · rw [hb'] 
      rw [hb] at hs'
      intro x hx
      rcases List.mem_append.1 hx with hx | hx
      · exact hs' x (by simp [hx])
      rcases List.mem_cons.1 hx with rfl | hx
      · exact e1.close he
      rcases List.mem_cons.1 hx with rfl | hx
      · exact hnew
      · exact hs' x (by simp [hx])

theorem copyTrivia_line {old new : Trivia} {cl : Bool} (ho : LineTrivia old cl) (hn : LineTrivia new true) : LineTrivia (copyTrivia old new) cl := by
  unfold copyTrivia
  refine ⟨ho.indent, ?_, ?_, ho.trail⟩
  · dsimp only; split
    · exact ho.cws
    · exact hn.cws
  · dsimp only; split
    · exact ho.comment
    · exact hn.comment

theorem FlatDoc.set_at {c : Cont} (h : FlatDoc c) {k : Str} {i : Nat} {key : SKey} {old : Item} (hm : mapGet k c.map = some [i])
    (hb : c.body[i]? = some (.mk (some key) old)) (hk : key.key = k) {v : Item} (hc : ∀ cl, FEnt (.mk (some key) old) cl → FEnt (.mk (some key) v) cl)
    {m : List (Str × List Nat)} {t : List Str}
    (hw : (Cont.mk (c.body.set i (.mk (some key) v)) m c.dict c.parsed t).WF) :
    FlatDoc (.mk (c.body.set i (.mk (some key) v)) m c.dict c.parsed t) ∧ (Shut c.body → Shut (c.body.set i (.mk (some key) v))) := by
  refine ⟨?_, fun hs => hs.set hb (hc true)⟩
  obtain ⟨a, b, h1, h2, _⟩ := set_split hb (.mk (some key) v)
  have hbody := h.body
  rw [h1] at hbody
  refine ⟨hw, ?_, h.parsed, ?_⟩
  · rw [Cont.body_mk, h2]
    exact hbody.replace (by intro t h0; cases h0) fun cl hcl => .inl (hc cl hcl)
  · rw [Cont.dict_mk, h.keys, Cont.body_mk, h2, h1]
    have e1 : ∀ x : Entry, a ++ x :: b = a ++ ([x] ++ b) := fun x => by simp
    rw [e1, e1]
    simp only [keysOf_append, keysOf_single, Entry.key_mk]

theorem FlatDoc.set {c c' : Cont} (h : FlatDoc c) {k : Str} {v : Item} (hv : Puttable v) (hr : c.setItem k v = .ok c') :
    FlatDoc c' ∧ (Shut c.body → Shut c'.body) := by
  have hw' := h.wf.setItem hr
  unfold Cont.setItem at hr
  rcases hm : mapGet k c.map with _ | is
  · rw [fuelFor, has_absent hm] at hr
    dsimp only at hr
    rcases ha : Cont.append true c (some (.single (mkKey k))) v with e | ⟨c1, ex⟩ <;> rw [ha] at hr <;> cases hr
    have hx : ex = false := by
      have hk' : mapGet (mkKey k).key c.map = none := by rw [mkKey_key]; exact hm
      rw [append_plain_new hv.reads.1 hk'] at ha
      rcases hx : c.appendTail (some (mkKey k)) v with e | c2 <;> rw [hx] at ha <;> cases ha
      rfl
    subst hx
    exact h.new hm hv ha
  · obtain ⟨i, key, old, rfl, hb, hkk, hpl⟩ := single_of_plain h.wf (flat_holds h.flat) hm
    rw [fuelFor, has_single hm, hm] at hr
    dsimp only at hr
    rw [replaceAt_plain hb hkk hpl hv.reads.1] at hr
    cases hr
    refine h.set_at hm hb hkk (fun cl hcl => ?_) hw'
    cases hcl with
    | kv hK _ hl =>
      have he : retrivia v old = v.setTrivia (copyTrivia old.trivia v.trivia) := by
        unfold retrivia
        rw [if_neg]
        have h1 := hv.reads.1
        simp only [Item.isTableLike, Bool.or_eq_false_iff] at h1
        simp [hv.reads.2.1, h1.2]
      rw [he]
      refine .kv hK (hv.reads.setTrivia _) ?_
      rw [setTrivia_trivia hv.reads.2.1]
      exact copyTrivia_line hl hv.line

theorem FlatDoc.append {c c' : Cont} (h : FlatDoc c) {k : Str} {v : Item} {ex : Bool} (hv : Puttable v)
    (hr : Cont.append true c (some (.single (mkKey k))) v = .ok (c', ex)) : FlatDoc c' ∧ (Shut c.body → Shut c'.body) := by
  rcases hm : mapGet k c.map with _ | is
  · have hk' : mapGet (mkKey k).key c.map = none := by rw [mkKey_key]; exact hm
    have hx : ex = false := by
      rw [append_plain_new hv.reads.1 hk'] at hr
      rcases hx : c.appendTail (some (mkKey k)) v with e | c2 <;> rw [hx] at hr <;> cases hr
      rfl
    subst hx
    exact h.new hm hv hr
  · obtain ⟨i, key, old, rfl, hb, hkk, hpl⟩ := single_of_plain h.wf (flat_holds h.flat) hm
    rw [append_plain_present h.wf hv.reads.1 (by rw [mkKey_key]; exact hm)] at hr
    cases hr

theorem FlatDoc.remove {c c' : Cont} (h : FlatDoc c) {k : Str} (hr : c.remove k = .ok c') :
    FlatDoc c' ∧ (Shut c.body → Shut c'.body) := by
  have hw' := h.wf.remove_ok hr
  unfold Cont.remove at hr
  rcases hm : mapGet k c.map with _ | is <;> rw [hm] at hr
  · cases hr
  · obtain ⟨i, key, old, rfl, hb, hkk, hpl⟩ := single_of_plain h.wf (flat_holds h.flat) hm
    cases hr
    have hnull : nullAt [i] c.body = c.body.set i Entry.nullEntry := rfl
    obtain ⟨a, b, h1, h2, _⟩ := set_split hb Entry.nullEntry
    have hbody := h.body
    rw [h1] at hbody
    refine ⟨⟨hw', ?_, h.parsed, ?_⟩, fun hs => hs.set hb fun _ => .null rfl⟩
    · rw [Cont.body_mk, hnull, h2]
      exact hbody.replace (by intro t h0; cases h0) fun cl hcl => .inr (.null rfl)
    · have hnd := h.wf.dictNodup
      rw [Cont.dict_mk, Cont.body_mk, hnull, h2]
      rw [h.keys, h1] at hnd
      rw [h.keys, h1]
      have e1 : ∀ x : Entry, a ++ x :: b = a ++ ([x] ++ b) := fun x => by simp
      rw [e1] at hnd
      rw [e1, e1]
      simp only [keysOf_append, keysOf_single, Entry.key_mk, Entry.nullEntry, hkk] at hnd ⊢
      rw [List.nodup_append] at hnd
      obtain ⟨_, h4, h5⟩ := hnd
      rw [List.cons_append, List.nil_append, List.nodup_cons] at h4
      unfold dictDel
      rw [List.filter_append, List.cons_append, List.filter_cons_of_neg (by simp), List.nil_append]
      congr 1
      · rw [List.filter_eq_self]
        intro x hx
        have := h5 x hx k (by simp)
        simpa using this
      · rw [List.filter_eq_self]
        intro x hx
        have : x ≠ k := fun h0 => h4.1 (h0 ▸ hx)
        simpa using this

/-- every line of the document is closed -/
theorem FlatDoc.add {c : Cont} (h : FlatDoc c) (hs : Shut c.body) {v : Item} {cl : Bool} (hv : FEnt (.mk none v) cl) :
    FlatDoc (.mk (c.body ++ [.mk none v]) c.map c.dict c.parsed c.tableKeys) := by
  have hr : c.rawAppend none v = .ok (.mk (c.body ++ [.mk none v]) c.map c.dict c.parsed c.tableKeys) := rfl
  refine ⟨h.wf.rawAppend (by intro k hk; cases hk) hr, ?_, h.parsed, ?_⟩
  · exact hs.append ⟨⟨cl, hv, .inr (by intro x hx; cases hx)⟩, trivial⟩
  · rw [Cont.dict_mk, Cont.body_mk, keysOf_append, keysOf_single, h.keys]
    simp
end Tomlkit
