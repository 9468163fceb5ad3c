import Verif.Proofs.KeepValues
import Verif.Proofs.AppendCases
/-!
# The text of an inline table, and appending values to a container being parsed
-/
namespace Tomlkit

/-! ### inline tables -/

/-- the text with a comma after each value -/
def commaed : List Entry → Str
  | [] => []
  | e :: r => e.inlinePiece ++ ((if e.key.isSome then [44] else []) ++ commaed r)

/-- some entry has a key -/
def anyKey (b : List Entry) : Bool := b.any fun e => e.key.isSome

/-- the text with commas between the values -/
def full : List Entry → Str
  | [] => []
  | e :: r => e.inlinePiece ++ ((if e.key.isSome && anyKey r then [44] else []) ++ full r)

theorem commaed_append (a b : List Entry) : commaed (a ++ b) = commaed a ++ commaed b := by
  induction a with
  | nil => rfl
  | cons e r ih => simp [commaed, ih]

theorem anyKey_append (a b : List Entry) : anyKey (a ++ b) = (anyKey a || anyKey b) := by simp [anyKey]

theorem full_noKey {b : List Entry} (h : anyKey b = false) : full b = commaed b := by
  induction b with
  | nil => rfl
  | cons e r ih =>
    simp only [anyKey, List.any_cons, Bool.or_eq_false_iff] at h
    rw [full, commaed, ih h.2, h.1]
    rfl

theorem full_ws (a : List Entry) (v : Item) : full (a ++ [.mk none v]) = full a ++ v.asString := by
  induction a with
  | nil => simp [full, Entry.inlinePiece]
  | cons e r ih =>
    rw [List.cons_append, full, full, ih, anyKey_append]
    simp [anyKey]

theorem full_key (a : List Entry) (e : Entry) (he : e.key.isSome = true) : full (a ++ [e]) = commaed a ++ e.inlinePiece := by
  induction a with
  | nil => simp [full, commaed, anyKey]
  | cons x r ih =>
    rw [List.cons_append, full, commaed, ih, anyKey_append]
    simp [anyKey, he]

theorem commaed_ws (a : List Entry) (v : Item) : commaed (a ++ [.mk none v]) = commaed a ++ v.asString := by
  rw [commaed_append]; simp [commaed, Entry.inlinePiece]

theorem commaed_key (a : List Entry) (e : Entry) (he : e.key.isSome = true) :
    commaed (a ++ [e]) = commaed a ++ (e.inlinePiece ++ [44]) := by
  rw [commaed_append]; simp [commaed, he]

theorem lastKeyIdx_snoc (a : List Entry) (e : Entry) :
    lastKeyIdx (a ++ [e]) = if e.key.isSome then some a.length else lastKeyIdx a := by
  unfold lastKeyIdx
  rw [List.zipIdx_append, List.reverse_append]
  by_cases h : e.key.isSome = true
  · simp [h]
  · simp [h]

theorem lastKeyIdx_spec (a b : List Entry) : (anyKey b = true → ∃ l, lastKeyIdx (a ++ b) = some l ∧ a.length ≤ l) ∧
    (anyKey b = false → lastKeyIdx (a ++ b) = lastKeyIdx a) := by
  induction hn : b.length generalizing b with
  | zero =>
    have : b = [] := List.length_eq_zero_iff.1 hn
    subst this
    refine ⟨fun h => absurd h (by decide), fun _ => by rw [List.append_nil]⟩
  | succ n ih =>
    rcases b.eq_nil_or_concat with rfl | ⟨b', e, rfl⟩
    · cases hn
    rw [List.concat_eq_append] at hn ⊢
    have ih := ih b' (by simpa using hn)
    rw [← List.append_assoc, lastKeyIdx_snoc, anyKey_append]
    by_cases h : e.key.isSome = true
    · rw [if_pos h]
      refine ⟨fun _ => ⟨_, rfl, by simp⟩, ?_⟩
      intro hk; simp [anyKey, h] at hk
    · rw [if_neg h]
      have h1 : anyKey [e] = false := by simp [anyKey, h]
      rw [h1, Bool.or_false]
      exact ih

theorem lastKeyIdx_lt (a : List Entry) : ∀ l, lastKeyIdx a = some l → l < a.length := by
  intro l h
  unfold lastKeyIdx at h
  obtain ⟨p, hp, rfl⟩ := Option.map_eq_some_iff.1 h
  have := List.mem_of_find?_eq_some hp
  rw [List.mem_reverse] at this
  have := List.snd_lt_of_mem_zipIdx this
  simpa using this

theorem rstripChars_same {buf : Str} (h : buf.getLast? ≠ some 44) : rstripChars [44] buf = buf := by
  unfold rstripChars
  rcases buf.eq_nil_or_concat with rfl | ⟨b, c, rfl⟩
  · rfl
  · rw [List.concat_eq_append] at h ⊢
    have : c ≠ 44 := by simpa using h
    simp [this]

/-- pieces never end in a comma -/
def PieceOk (e : Entry) : Prop := e.inlinePiece.getLast? ≠ some 44 ∧ (e.key.isSome = true → e.inlinePiece ≠ [])

theorem inlineLoop_full (r : List Entry) : ∀ (pre : List Entry) (buf : Str), (∀ e ∈ r, PieceOk e) →
    (anyKey r = false → buf.getLast? ≠ some 44) →
    inlineLoop false (lastKeyIdx (pre ++ r)) (pre ++ r).length pre.length buf r = buf ++ full r := by
  induction r with
  | nil => intro pre buf _ _; simp [inlineLoop, full]
  | cons e r ih =>
    intro pre buf hp hb
    have hpr : ∀ e ∈ r, PieceOk e := fun x hx => hp x (List.mem_cons_of_mem _ hx)
    have hpe := hp e (List.mem_cons_self ..)
    have hsplit : pre ++ e :: r = (pre ++ [e]) ++ r := by simp
    have hlen : pre.length + 1 = (pre ++ [e]).length := by simp
    have hlast : ∀ x : Str, x.getLast? ≠ some 44 → e.inlinePiece.getLast? ≠ some 44 → (x ++ e.inlinePiece).getLast? ≠ some 44 := by
      intro x hx he
      rw [List.getLast?_append]
      rcases hq : e.inlinePiece.getLast? with _ | c
      · exact hx
      · rw [hq] at he; exact he
    rw [inlineLoop]
    rcases hk : e.key with _ | k
    · dsimp only
      have hkey : anyKey (e :: r) = anyKey r := by simp [anyKey, hk]
      have hstrip : (if (pre.length == (pre ++ e :: r).length - 1) = true then rstripChars [44] buf else buf) = buf := by
        split
        · rename_i hi
          have : r = [] := by
            have : pre.length = (pre ++ e :: r).length - 1 := by simpa using hi
            rcases r with _ | ⟨x, r⟩
            · rfl
            · simp at this
          subst this
          exact rstripChars_same (hb (by simp [anyKey, hk]))
        · rfl
      have hstrip : (if (pre.length == (pre ++ e :: r).length - 1) = true then
          rstripChars (if false = true then t!", " else t!",") buf else buf) = buf := hstrip
      rw [hstrip, hlen, hsplit, ih _ _ hpr]
      · rw [full]; simp [hk]
      · intro h
        exact hlast _ (hb (by rw [hkey]; exact h)) hpe.1
    · dsimp only
      rcases hk2 : anyKey r with _ | _
      · have h1 := (lastKeyIdx_spec (pre ++ [e]) r).2 hk2
        rw [lastKeyIdx_snoc, hk] at h1
        simp only [Option.isSome_some, if_true] at h1
        have hl : lastKeyIdx (pre ++ e :: r) = some pre.length := by rw [hsplit]; exact h1
        have := ih (pre ++ [e]) (buf ++ e.inlinePiece) hpr (by
          intro _
          have hne := hpe.2 (by rw [hk]; rfl)
          rw [List.getLast?_append]
          rcases hq : e.inlinePiece.getLast? with _ | c
          · exact absurd (List.getLast?_eq_none_iff.1 hq) hne
          · have := hpe.1; rw [hq] at this; exact this)
        rw [← hsplit, ← hlen, hl] at this
        rw [hl]
        simp only [Nat.lt_irrefl, if_false]
        rw [this, full, hk2]
        simp
      · obtain ⟨l, h1, h2⟩ := (lastKeyIdx_spec (pre ++ [e]) r).1 hk2
        have hl : lastKeyIdx (pre ++ e :: r) = some l := by rw [hsplit]; exact h1
        have hlt : pre.length < l := by rw [← hlen] at h2; omega
        have := ih (pre ++ [e]) (buf ++ e.inlinePiece ++ [44]) hpr (by intro h; rw [hk2] at h; cases h)
        rw [← hsplit, ← hlen, hl] at this
        rw [hl]
        simp only [hlt, if_true]
        refine Eq.trans this ?_
        rw [full, hk2]
        simp [hk]

theorem inlineString_full {c : Cont} (h : ∀ e ∈ c.body, PieceOk e) : c.inlineString false = [123] ++ full c.body ++ [125] := by
  rcases c with ⟨b, m, d, p, tk⟩
  show inlineLoop false (lastKeyIdx b) b.length 0 [123] b ++ [125] = _
  have := inlineLoop_full b [] [123] h (by intro _; decide)
  simp only [List.nil_append, List.length_nil] at this
  rw [this]
  rfl

/-! ### appending to a container being parsed -/

/-- the item as it is stored: with a name -/
def Item.Named (i i' : Item) : Prop := i' = i ∨ ∃ nm, i' = i.setName nm

theorem prepare_parsed {c : Cont} (hc : c.parsed = true) {key : Option SKey} {item item' : Item}
    (h : c.prepare key item = .ok item') :
    item' = (if item.isTableLike && item.name?.isNone then key.elim item fun k => item.setName k.key else item) := by
  unfold Cont.prepare at h
  have hfin : ∀ i : Item, (match (some i : Option Item) with
      | none => (.error .attributeError : Except Err Item)
      | some (.table tb) =>
        let tb := if c.parsed then tb else tb.invalidate
        if !c.body.isEmpty && !(c.parsed || !tb.trivia.indent.isEmpty || c.prevWs) && !isDottedKey key then
          .ok (.table (tb.setTrivia { tb.trivia with indent := [10] }))
        else .ok (.table tb)
      | some (.aot ts t n p) =>
        if !c.body.isEmpty && !c.parsed then
          match invalidateAll ts with
          | [] => .ok (.aot [] t n p)
          | h :: r =>
            if hasNl h.trivia.indent || c.prevWs then .ok (.aot (h :: r) t n p)
            else .ok (.aot (h.setTrivia { h.trivia with indent := 10 :: h.trivia.indent } :: r) t n p)
        else .ok (.aot ts t n p)
      | some i => .ok i) = .ok item' → item' = i := by
    intro i hi
    cases i <;> simp [hc] at hi <;> exact hi.symm
  by_cases hn : (item.isTableLike && item.name?.isNone) = true
  · rw [if_pos hn] at h ⊢
    rcases key with _ | k
    · cases h
    · exact hfin _ h
  · rw [if_neg hn] at h ⊢
    exact hfin _ h

theorem rawAppend_keep {c c' : Cont} {key : Option SKey} {item : Item} (h : c.rawAppend key item = .ok c') :
    c'.body = c.body ++ [.mk key item] ∧ c'.parsed = c.parsed := by
  unfold Cont.rawAppend at h
  rcases key with _ | k
  · cases h; exact ⟨rfl, rfl⟩
  dsimp only at h
  rcases hm : mapGet k.key c.map with _ | is <;> rw [hm] at h <;> dsimp only at h
  · cases h; exact ⟨rfl, rfl⟩
  · split at h
    · split at h
      · cases h; exact ⟨rfl, rfl⟩
      · cases h
    · cases h

theorem appendTail_parsed {c c' : Cont} (hc : c.parsed = true) {key : Option SKey} {item : Item}
    (h : c.appendTail key item = .ok c') : c'.body = c.body ++ [.mk key item] ∧ c'.parsed = true := by
  unfold Cont.appendTail at h
  rcases key with _ | k
  · exact hc ▸ rawAppend_keep h
  · simp only [hc, Bool.not_true, Bool.and_false, Bool.false_and, Bool.false_eq_true, if_false] at h
    exact hc ▸ rawAppend_keep h

theorem append1_value {n : Nat} {al validate : Bool} {c c' : Cont} {mv : Bool} (hc : c.parsed = true) {key : Option SKey}
    {item : Item} (hi : item.isTableLike = false) (h : Cont.append1 n al validate c key item = .ok (c', mv)) :
    c'.body = c.body ++ [.mk key item] ∧ c'.parsed = true ∧ mv = false := by
  rcases n with _ | n
  · rw [Cont.append1] at h; cases h
  have hprep : ∀ item', c.prepare key item = .ok item' → item' = item := by
    intro item' hp
    rw [prepare_parsed hc hp, hi]; rfl
  have hnt : ∀ tb, item ≠ .table tb := by rintro tb rfl; cases hi
  have hna : ∀ ts t nm p, item ≠ .aot ts t nm p := by rintro _ _ _ _ rfl; cases hi
  cases append1_cases h with
  | fresh item' _ hp hk ht =>
    cases hprep _ hp
    obtain ⟨h1, h2⟩ := appendTail_parsed hc ht
    exact ⟨h1, h2, rfl⟩
  | again item' _ k i cur ct tb hp hk hl hcv hii ht => exact absurd ((hprep _ hp).symm.trans hii) (hnt tb)
  | aotAdd item' k i cur tb ts t nm p hp hk hal hl hcv hii ha => exact absurd ((hprep _ hp).symm.trans hii) (hnt tb)
  | toAoT item' k i cur tb ct _ hp hk hal hl hcv hii ha hr2 => exact absurd ((hprep _ hp).symm.trans hii) (hnt tb)
  | superApart item' k i cur tb ct _ idx hp hk hl hcv hii hs hs' hidx hr2 hv =>
    exact absurd ((hprep _ hp).symm.trans hii) (hnt tb)
  | superMerge item' k i cur tb ct ct' mv hp hk hl hcv hii hs hs' hd hd' hf =>
    exact absurd ((hprep _ hp).symm.trans hii) (hnt tb)
  | aotMerge item' k i cur ts t nm p ts' t' nm' p' hp hk hal hl hcv hii =>
    exact absurd ((hprep _ hp).symm.trans hii) (hna _ _ _ _)

/-- a dotted super table always becomes a new entry -/
theorem append1_dotted {n : Nat} {al validate : Bool} {c c' : Cont} {mv : Bool} (hc : c.parsed = true) {k : SKey}
    (hd : k.dotted = true) {t : Tbl} (ha : t.isAot = false)
    (h : Cont.append1 n al validate c (some k) (.table t) = .ok (c', mv)) :
    (∃ nm, c'.body = c.body ++ [.mk (some k) (.table (.mk t.cont t.trivia t.isAot t.superFlag nm t.display))]) ∧
      c'.parsed = true ∧ mv = false := by
  rcases n with _ | n
  · rw [Cont.append1] at h; cases h
  have hprep : ∀ item', c.prepare (some k) (.table t) = .ok item' →
      ∃ nm, item' = .table (.mk t.cont t.trivia t.isAot t.superFlag nm t.display) := by
    intro item' hp
    rw [prepare_parsed hc hp]
    split
    · exact ⟨some k.key, by rcases t with ⟨c, tr, a, s, n, d⟩; rfl⟩
    · exact ⟨t.name, by rcases t with ⟨c, tr, a, s, n, d⟩; rfl⟩
  have htb : ∀ (item' : Item) tb nm, item' = .table (.mk t.cont t.trivia t.isAot t.superFlag nm t.display) → item' = .table tb →
      tb.isAot = false := by
    rintro item' tb nm rfl h2
    cases h2
    exact ha
  cases append1_cases h with
  | fresh item' _ hp hk ht =>
    obtain ⟨nm, rfl⟩ := hprep _ hp
    obtain ⟨h1, h2⟩ := appendTail_parsed hc ht
    exact ⟨⟨nm, h1⟩, h2, rfl⟩
  | again item' _ k i cur ct tb hp hk hl hcv hii ht =>
    cases hk
    obtain ⟨nm, rfl⟩ := hprep _ hp
    obtain ⟨h1, h2⟩ := appendTail_parsed hc ht
    exact ⟨⟨nm, h1⟩, h2, rfl⟩
  | aotAdd item' k i cur tb ts t nm p hp hk hal hl hcv hii ha' =>
    obtain ⟨nm, hnm⟩ := hprep _ hp
    rw [htb _ _ _ hnm hii] at ha'; cases ha'
  | toAoT item' k i cur tb ct _ hp hk hal hl hcv hii ha' hr2 =>
    obtain ⟨nm, hnm⟩ := hprep _ hp
    rw [htb _ _ _ hnm hii] at ha'; cases ha'
  | superApart item' k i cur tb ct _ idx hp hk hl hcv hii hs hs' hidx hr2 hv =>
    cases hk
    obtain ⟨nm, rfl⟩ := hprep _ hp
    have hidx : idx = c.body.length := by rw [hidx, hc]; simp
    subst hidx
    rw [if_neg (Nat.lt_irrefl _)] at hr2
    obtain ⟨h1, h2⟩ := rawAppend_keep hr2
    exact ⟨⟨nm, h1⟩, h2.trans hc, by simp⟩
  | superMerge item' k i cur tb ct ct' mv hp hk hl hcv hii hs hs' hd' hd2 hf =>
    cases hk
    rw [hd] at hd'; cases hd'
  | aotMerge item' k i cur ts t nm p ts' t' nm' p' hp hk hal hl hcv hii =>
    obtain ⟨nm, hnm⟩ := hprep _ hp
    rw [hii] at hnm; cases hnm

theorem dottedChain_plain {v : Item} (sep : Str) : ∀ (r : List SKey) (nm : Option Str) (t : Tbl),
    dottedChain nm r sep v = some t → t.isAot = false ∧ t.name = nm := by
  intro r
  rcases r with _ | ⟨k, _ | ⟨k2, r⟩⟩
  · intro nm t h; cases h
  · intro nm t h; simp only [dottedChain, Option.some.injEq] at h; subst h; exact ⟨rfl, rfl⟩
  · intro nm t h
    simp only [dottedChain, Option.map_eq_some_iff] at h
    obtain ⟨t', _, rfl⟩ := h
    exact ⟨rfl, rfl⟩

/-- what appending a value to a container being parsed does -/
theorem append_value {validate : Bool} {c c' : Cont} {mv : Bool} (hc : c.parsed = true) {key : Key} {v : Item}
    (hv : v.isSimple = true) (h : Cont.append validate c (some key) v = .ok (c', mv)) :
    ∃ e, NewEntry key v e ∧ c'.body = c.body ++ [e] ∧ c'.parsed = true ∧ mv = false := by
  have hl : v.isTableLike = false := by cases v <;> first | rfl | cases hv
  unfold Cont.append at h
  dsimp only at h
  rcases hk : key.parts with _ | ⟨k, _ | ⟨k2, r⟩⟩ <;> rw [hk] at h
  · cases h
  · obtain ⟨h1, h2, h3⟩ := append1_value hc hl h
    exact ⟨_, .one k hk, h1, h2, h3⟩
  · dsimp only at h
    rw [hl] at h
    simp only [Bool.false_eq_true, if_false] at h
    rcases ht : dottedChain none (k2 :: r) key.sep v with _ | t <;> rw [ht] at h
    · cases h
    · obtain ⟨⟨nm, h1⟩, h2, h3⟩ := append1_dotted hc rfl (dottedChain_plain _ _ _ _ ht).1 h
      exact ⟨_, .chain k (k2 :: r) t nm hk (by simp) ht, h1, h2, h3⟩

theorem append_ws {validate : Bool} {c c' : Cont} {mv : Bool} (hc : c.parsed = true) {v : Item} (hv : v.isTableLike = false)
    (h : Cont.append validate c none v = .ok (c', mv)) : c'.body = c.body ++ [.mk none v] ∧ c'.parsed = true ∧ mv = false :=
  append1_value hc hv h

end Tomlkit
