import Verif.Proofs.ParsedLine
/-!
# A document without tables that was read
-/
namespace Tomlkit
open _root_.Spec Tomlkit.Spec

theorem BlankText.append {s t : Str} {b cl : Bool} (hs : BlankText s b) (hb : b = true) (ht : BlankText t cl) : BlankText (s ++ t) cl := by
  induction hs with
  | nil => exact ht
  | «open» => cases hb
  | line h hn _ ih =>
    rw [List.append_assoc, List.append_assoc]
    exact .line h hn (ih hb)

/-- an item as it is read -/
inductive ItemHas : Option Key → Item → Bool → Prop
  | ws {s : Str} {cl : Bool} (h : BlankText s cl) : ItemHas none (.ws s false) cl
  | cmt {t : Trivia} {cl : Bool} (h : LineTrivia t cl) (hc : Cmt t.comment) (hne : t.comment ≠ []) : ItemHas none (.comment t) cl
  | kv {k : Key} {v : Item} {cl : Bool} (h : PairHas k v cl) : ItemHas (some k) v cl

theorem item_has {st : St} {k : Option Key} {v : Item} {s : St} (hst : st.loss = []) (h : parseItem st = .ok (some (k, v)) s) (hl : s.loss = [])
    (hn : NoLoneCr st.rest) : ∃ cl, ItemHas k v cl ∧ (cl = true ∨ s.rest = []) := by
  rcases st with ⟨r, e, a, l⟩
  simp only at hst
  subst hst
  unfold parseItem at h
  obtain ⟨_, s1, q1, h⟩ := bind_ok h
  cases q1
  rw [getSt_bind] at h
  obtain ⟨_, s1, q1, h⟩ := bind_ok h
  rw [skip_st] at q1
  cases q1
  have hsplit : r = r.takeWhile isSpTabCr ++ r.dropWhile isSpTabCr := List.takeWhile_append_dropWhile.symm
  have hrun := blank_run hn hsplit fun c hc => takeWhile_mem c hc
  have hn2 : NoLoneCr (r.dropWhile isSpTabCr) := NoLoneCr.suffix hn (List.dropWhile_suffix _)
  generalize r.takeWhile isSpTabCr = W at *
  generalize r.dropWhile isSpTabCr = R at *
  rw [getSt_bind] at h
  by_cases h10 : (St.mk R ([] ++ W) a []).cur = 10
  · rw [if_pos h10] at h
    obtain ⟨_, s1, q1, h⟩ := bind_ok h
    obtain ⟨_, s2, q2, h⟩ := bind_ok h
    cases q2
    cases h
    rcases R with _ | ⟨c, R⟩
    · cases h10
    have h10 : c = 10 := h10
    subst h10
    cases q1
    refine ⟨true, .ws ?_, .inl rfl⟩
    rcases hrun with hW | ⟨sp, r', rfl, h4, _⟩
    · have := BlankText.line hW (nl := [10]) (.inl ⟨rfl, .inl rfl⟩) .nil
      simpa using this
    · have := BlankText.line h4 (nl := [13, 10]) (.inl ⟨rfl, .inr rfl⟩) .nil
      simpa using this
  rw [if_neg h10] at h
  by_cases hE : ((St.mk R ([] ++ W) a []).atEnd && !(St.mk R ([] ++ W) a []).ext.isEmpty) = true
  · rw [if_pos hE] at h
    simp only [Bool.and_eq_true, Bool.not_eq_true', List.nil_append] at hE
    have hR : R = [] := by simpa [St.atEnd] using hE.1
    have hW0 : W ≠ [] := by
      rintro rfl
      exact absurd hE.2 (by decide)
    cases h
    subst hR
    refine ⟨false, .ws ?_, .inr rfl⟩
    rcases hrun with hW | ⟨_, _, _, _, h⟩
    · exact .open hW hW0
    · cases h
  rw [if_neg hE] at h
  by_cases h35 : (St.mk R ([] ++ W) a []).cur = 35
  · rw [if_pos h35] at h
    obtain ⟨_, s1, q1, h⟩ := bind_ok h
    cases q1
    obtain ⟨⟨cws, cm, tr⟩, s2, q2, h⟩ := bind_ok h
    dsimp only at h
    cases h
    obtain ⟨cl, he, hcl⟩ := commentTrail_is q2 hn2
    rcases R with _ | ⟨c, R⟩
    · cases h35
    have h35 : c = 35 := h35
    subst h35
    refine ⟨cl, .cmt ⟨?_, he.cws, ⟨[], _, rfl, Spaces.nil, he.comment⟩, he.trail⟩ he.comment ?_, hcl⟩
    · rcases hrun with hW | ⟨_, _, _, _, h⟩
      · exact hW
      · cases h
    · exact comment_there q2
  rw [if_neg h35] at h
  by_cases h91 : (St.mk R ([] ++ W) a []).cur = 91
  · rw [if_pos h91] at h; cases h
  rw [if_neg h91] at h
  obtain ⟨⟨k', v'⟩, s1, q1, h⟩ := bind_ok h
  cases h
  obtain ⟨cl, hp, hcl⟩ := pair_has rfl q1 hl hn
  exact ⟨cl, .kv hp, hcl⟩

/-! ### tables stay -/

/-- there is a table -/
def HasT (c : Cont) : Prop := ∃ e ∈ c.body, e.v.isTableLike = true

theorem HasT.push {c c' : Cont} {key : Option SKey} {item : Item} (h : c'.body = c.body ++ [.mk key item]) (ht : HasT c ∨ item.isTableLike = true) : HasT c' := by
  unfold HasT
  rw [h]
  rcases ht with ⟨e, he, h1⟩ | h1
  · exact ⟨e, by simp [he], h1⟩
  · exact ⟨.mk key item, by simp, h1⟩

theorem HasT.setAt {c : Cont} {i : Nat} {cur : Entry} {v : Item} (h : c.body[i]? = some cur) (hv : v.isTableLike = true) : HasT (c.setAt i cur v) := by
  refine ⟨.mk cur.key v, ?_, hv⟩
  show _ ∈ c.body.set i _
  exact List.mem_set (List.getElem?_eq_some_iff.1 h).1 _

theorem prepare_like {c : Cont} {key : Option SKey} {item item' : Item} (h : c.prepare key item = .ok item')
    (ht : HasT c ∨ (key.isSome = true ∧ item.isTableLike = true)) : HasT c ∨ item'.isTableLike = true := by
  rcases ht with ht | ⟨hk, ht⟩
  · exact .inl ht
  rcases key with _ | k
  · cases hk
  · obtain ⟨w, h1, h2, h3⟩ := prepare_kind (c := c) (k := k) (v := item)
    rw [h1] at h; cases h
    right
    unfold Item.isTableLike at ht ⊢
    rw [h2, h3]; exact ht

theorem append1_hasT {n : Nat} {validate : Bool} {c c' : Cont} {key : Option SKey} {item : Item} (hc : c.parsed = true)
    (h : Cont.append1 n false validate c key item = .ok (c', false)) (ht : HasT c ∨ (key.isSome = true ∧ item.isTableLike = true)) : HasT c' ∧ c'.parsed = true := by
  rcases n with _ | n
  · rw [Cont.append1] at h; cases h
  have hr := append1_cases h
  generalize hmv : false = mv at hr
  have htail : ∀ item', c.appendTail key item' = .ok c' → c.rawAppend key item' = .ok c' := by
    intro item' ht
    unfold Cont.appendTail at ht
    rw [hc] at ht
    rcases key with _ | k
    · exact ht
    · simpa using ht
  cases hr with
  | fresh item' _ hp hk h1 =>
    have h1 := htail _ h1
    exact ⟨HasT.push (rawAppend_body h1) (prepare_like hp ht), by rw [(rawAppend_fields h1).1]; exact hc⟩
  | again item' _ k i cur ct tb hp hk hl hcur hi h1 =>
    have h1 := htail _ h1
    exact ⟨HasT.push (rawAppend_body h1) (prepare_like hp ht), by rw [(rawAppend_fields h1).1]; exact hc⟩
  | aotAdd => cases hmv
  | toAoT => cases hmv
  | superApart item' k i cur tb ct _ idx hp hk hl hcur hi hs hs' hidx h1 hv =>
    rw [if_neg (of_decide_eq_false hmv.symm)] at h1
    exact ⟨HasT.push (rawAppend_body h1) (prepare_like hp ht), by rw [(rawAppend_fields h1).1]; exact hc⟩
  | superMerge item' k i cur tb ct ct' mv hp hk hl => exact ⟨HasT.setAt (lastEntry_at hl) rfl, hc⟩
  | aotMerge item' k i cur ts t nm p ts' t' nm' p' hp hk hal hl => exact ⟨HasT.setAt (lastEntry_at hl) rfl, hc⟩

theorem append_hasT {validate : Bool} {c c' : Cont} {key : Option Key} {v : Item} (hc : c.parsed = true)
    (h : Cont.append validate c key v = .ok (c', false)) (ht : HasT c ∨ (key.isSome = true ∧ v.isTableLike = true) ∨ ∃ k a b r, key = some k ∧ k.parts = a :: b :: r) :
    HasT c' ∧ c'.parsed = true := by
  unfold Cont.append at h
  rcases key with _ | key
  · refine append1_hasT hc h (ht.imp_right fun h => ?_)
    rcases h with ⟨h, _⟩ | ⟨_, _, _, _, h, _⟩ <;> cases h
  · dsimp only at h
    split at h
    · cases h
    · rename_i k hk
      refine append1_hasT hc h (ht.imp_right fun h => ?_)
      rcases h with h | ⟨k', a, b, r, h1, h2⟩
      · exact ⟨rfl, h.2⟩
      · cases h1; rw [hk] at h2; cases h2
    · split at h
      · cases h
      · split at h
        · cases h
        · exact append1_hasT hc h (.inr ⟨rfl, rfl⟩)

theorem mergeWs_hasT {c c' : Cont} {v : Item} (h : mergeWs c v = some c') (ht : HasT c) : HasT c' ∧ c'.parsed = c.parsed := by
  unfold mergeWs at h
  split at h
  · rename_i k s f s' f' hb
    cases h
    refine ⟨?_, rfl⟩
    obtain ⟨e, he, h1⟩ := ht
    have hl : c.body = c.body.dropLast ++ [.mk k (.ws s f)] := by
      obtain ⟨ys, hy⟩ := List.getLast?_eq_some_iff.1 hb
      rw [hy]; simp
    rw [hl] at he
    rcases List.mem_append.1 he with he | he
    · exact ⟨e, by simp [he], h1⟩
    · rw [List.mem_singleton] at he; subst he; cases h1
  · cases h

/-! ### so do the tables of dotted keys -/

/-- there is a table made by a dotted key -/
def HasD (c : Cont) : Prop := ∃ e ∈ c.body, e.v.isTableLike = true ∧ isDottedKey e.key = true

theorem HasD.hasT {c : Cont} (h : HasD c) : HasT c := by
  obtain ⟨e, h1, h2, _⟩ := h
  exact ⟨e, h1, h2⟩

theorem HasD.push {c c' : Cont} {key : Option SKey} {item : Item} (h : c'.body = c.body ++ [.mk key item])
    (ht : HasD c ∨ (item.isTableLike = true ∧ isDottedKey key = true)) : HasD c' := by
  unfold HasD
  rw [h]
  rcases ht with ⟨e, he, h1⟩ | h1
  · exact ⟨e, by simp [he], h1⟩
  · exact ⟨.mk key item, by simp, h1⟩

theorem HasD.setAt {c : Cont} {i : Nat} {cur : Entry} {v : Item} (h : c.body[i]? = some cur) (hv : v.isTableLike = true) (hd : HasD c) : HasD (c.setAt i cur v) := by
  obtain ⟨e, he, h1, h2⟩ := hd
  obtain ⟨j, hj⟩ := List.mem_iff_getElem?.1 he
  by_cases hij : i = j
  · subst hij
    rw [h] at hj; cases hj
    refine ⟨.mk cur.key v, ?_, hv, h2⟩
    show _ ∈ c.body.set i _
    exact List.mem_set (List.getElem?_eq_some_iff.1 h).1 _
  · refine ⟨e, ?_, h1, h2⟩
    show _ ∈ c.body.set i _
    refine List.mem_iff_getElem?.2 ⟨j, ?_⟩
    rw [List.getElem?_set, if_neg hij]; exact hj

theorem append1_hasD {n : Nat} {validate : Bool} {c c' : Cont} {key : Option SKey} {item : Item} (hc : c.parsed = true)
    (h : Cont.append1 n false validate c key item = .ok (c', false)) (ht : HasD c ∨ (isDottedKey key = true ∧ item.isTable = true)) : HasD c' := by
  rcases n with _ | n
  · rw [Cont.append1] at h; cases h
  have hr := append1_cases h
  generalize hmv : false = mv at hr
  have htail : ∀ item', c.appendTail key item' = .ok c' → c.rawAppend key item' = .ok c' := by
    intro item' ht
    unfold Cont.appendTail at ht
    rw [hc] at ht
    rcases key with _ | k
    · exact ht
    · simpa using ht
  have hpre : ∀ item', c.prepare key item = .ok item' → HasD c ∨ (item'.isTableLike = true ∧ isDottedKey key = true) := by
    intro item' hp
    refine ht.imp_right fun ⟨h1, h2⟩ => ⟨?_, h1⟩
    rcases key with _ | k
    · cases h1
    · obtain ⟨w, g1, g2, g3⟩ := prepare_kind (c := c) (k := k) (v := item)
      rw [g1] at hp; cases hp
      unfold Item.isTableLike
      rw [g2, h2]; rfl
  cases hr with
  | fresh item' _ hp hk h1 => exact HasD.push (rawAppend_body (htail _ h1)) (hpre _ hp)
  | again item' _ k i cur ct tb hp hk hl hcur hi h1 => exact HasD.push (rawAppend_body (htail _ h1)) (hpre _ hp)
  | aotAdd => cases hmv
  | toAoT => cases hmv
  | superApart item' k i cur tb ct _ idx hp hk hl hcur hi hs hs' hidx h1 hv =>
    rw [if_neg (of_decide_eq_false hmv.symm)] at h1
    exact HasD.push (rawAppend_body h1) (hpre _ hp)
  | superMerge item' k i cur tb ct ct' mv hp hk hl hcur hi hs hs' hd hd' =>
    refine HasD.setAt (lastEntry_at hl) rfl (ht.resolve_right fun h0 => ?_)
    rw [hk] at h0
    have : k.dotted = true := h0.1
    rw [hd] at this; cases this
  | aotMerge item' k i cur ts t nm p ts' t' nm' p' hp hk hal hl hcur hi =>
    refine HasD.setAt (lastEntry_at hl) rfl (ht.resolve_right fun h0 => ?_)
    obtain ⟨w, g1, g2, g3⟩ := prepare_kind (c := c) (k := k) (v := item)
    rw [hk, g1] at hp; cases hp
    rw [hi, h0.2] at g2; cases g2

theorem append_hasD {validate : Bool} {c c' : Cont} {key : Option Key} {v : Item} (hc : c.parsed = true)
    (h : Cont.append validate c key v = .ok (c', false)) (ht : HasD c ∨ ∃ k a b r, key = some k ∧ k.parts = a :: b :: r) : HasD c' := by
  unfold Cont.append at h
  rcases key with _ | key
  · refine append1_hasD hc h (ht.imp_right fun h => ?_)
    obtain ⟨_, _, _, _, h, _⟩ := h
    cases h
  · dsimp only at h
    split at h
    · cases h
    · rename_i k hk
      refine append1_hasD hc h (ht.imp_right fun h => ?_)
      obtain ⟨k', a, b, r, h1, h2⟩ := h
      cases h1; rw [hk] at h2; cases h2
    · split at h
      · cases h
      · split at h
        · cases h
        · exact append1_hasD hc h (.inr ⟨rfl, rfl⟩)

theorem mergeWs_hasD {c c' : Cont} {v : Item} (h : mergeWs c v = some c') (ht : HasD c) : HasD c' := by
  unfold mergeWs at h
  split at h
  · rename_i k s f s' f' hb
    cases h
    obtain ⟨e, he, h1⟩ := ht
    have hl : c.body = c.body.dropLast ++ [.mk k (.ws s f)] := by
      obtain ⟨ys, hy⟩ := List.getLast?_eq_some_iff.1 hb
      rw [hy]; simp
    rw [hl] at he
    rcases List.mem_append.1 he with he | he
    · exact ⟨e, by simp [he], h1⟩
    · rw [List.mem_singleton] at he; subst he; cases h1.1
  · cases h

theorem wrapErr_inv {α : Type} {x : Except Err α} {st s : St} {a : α} (h : wrapErr x st = .ok a s) : x = .ok a ∧ s = st := by
  unfold wrapErr at h
  split at h <;> cases h
  exact ⟨rfl, rfl⟩

theorem note_false {b : Bool} {k : Loss} {st s : St} {x : Unit} (h : note b k st = .ok x s) (hl : s.loss = []) : b = false := by
  unfold note at h
  cases h
  cases b
  · rfl
  · simp at hl

theorem mono_topItems (n : Nat) (c : Cont) : Mono (topItems n c) := mono_keeps fun st => topItems_keep n st c
theorem mono_topTables (n : Nat) (c : Cont) : Mono (topTables n c) := mono_keeps fun st => topTables_keep n st c

/-- one turn of the first loop -/
theorem topItems_step {n : Nat} {c c' : Cont} {st s : St} (h : topItems (n + 1) c st = .ok c' s) (hl : s.loss = []) :
    (c' = c ∧ s = st ∧ (st.rest = [] ∨ ∃ r, st.rest = 91 :: r)) ∨ (c' = c ∧ (∃ r, s.rest = 91 :: r) ∧ (st.atEnd || decide (st.cur = 91)) = false ∧ parseItem st = .ok none s) ∨
    ∃ k v s1 s2, parseItem st = .ok (some (k, v)) s1 ∧ s1.loss = [] ∧ (s2.rest = s1.rest ∧ s2.ext = []) ∧ s2.loss = [] ∧
      ((∃ c1, mergeWs c v = some c1 ∧ topItems n c1 s2 = .ok c' s) ∨
       ∃ c1, Cont.append true c k v = .ok (c1, false) ∧ topItems n c1 s2 = .ok c' s) := by
  unfold topItems at h
  rw [getSt_bind] at h
  by_cases hc : (st.atEnd || decide (st.cur = 91)) = true
  · rw [if_pos hc] at h
    cases h
    refine .inl ⟨rfl, rfl, ?_⟩
    simp only [Bool.or_eq_true] at hc
    rcases hc with hc | hc
    · exact .inl (by simpa [St.atEnd] using hc)
    · exact .inr (cur_cons (of_decide_eq_true hc) (by decide))
  rw [if_neg hc] at h
  obtain ⟨r, s1, q1, h⟩ := bind_ok h
  right
  rcases r with _ | ⟨k, v⟩
  · cases h
    have := keeps_fact (parseItem_keeps st) q1 hl
    left
    exact ⟨rfl, cur_cons (this.stop rfl).1 (by decide), by simpa using hc, q1⟩
  · right
    dsimp only at h
    generalize hx : (if (k.map Key.isMulti).getD false = true then none else mergeWs c v) = x at h
    rcases x with _ | c1
    rotate_left
    · have hm : mergeWs c v = some c1 := by
        revert hx
        split
        · intro h; cases h
        · exact fun h => h
      obtain ⟨_, s2, q2, h⟩ := bind_ok h
      cases q2
      have := loss_nil (mono_topItems _ _ _ _ _ h).2 hl
      exact ⟨k, v, s1, ⟨s1.rest, [], s1.aot, s1.loss⟩, q1, this, ⟨rfl, rfl⟩, this, .inl ⟨c1, hm, h⟩⟩
    · dsimp only at h
      obtain ⟨⟨c1, mv⟩, s2, q2, h⟩ := bind_ok h
      obtain ⟨q2, hs2⟩ := wrapErr_inv q2
      rw [hs2] at h
      obtain ⟨_, s3, q3, h⟩ := bind_ok h
      obtain ⟨_, s4, q4, h⟩ := bind_ok h
      cases q4
      have h3 := loss_nil (mono_topItems _ _ _ _ _ h).2 hl
      have hmv := note_false q3 h3
      have hs3 := note_quiet q3 h3
      rw [hs3] at h h3
      simp only at hmv
      rw [hmv] at q2
      exact ⟨k, v, s1, ⟨s1.rest, [], s1.aot, s1.loss⟩, q1, h3, ⟨rfl, rfl⟩, h3, .inr ⟨c1, q2, h⟩⟩

/-- where the first loop stops -/
theorem topItems_halt : ∀ (n : Nat) {c c' : Cont} {st s : St}, topItems n c st = .ok c' s → s.loss = [] → st.ext = [] → st.loss = [] →
    (s.ext = [] ∧ (s.rest = [] ∨ ∃ r, s.rest = 91 :: r)) ∨
    ∃ st0, st0.ext = [] ∧ st0.loss = [] ∧ (st0.atEnd || decide (st0.cur = 91)) = false ∧ parseItem st0 = .ok none s := by
  intro n
  induction n with
  | zero => intro c c' st s h; cases h
  | succ n ih =>
    intro c c' st s h hl he h0
    rcases topItems_step h hl with ⟨rfl, rfl, h2⟩ | ⟨rfl, _, h2, h3⟩ | ⟨k, v, s1, s2, _, _, h3, h4, ⟨c1, h1, h2⟩ | ⟨c1, h1, h2⟩⟩
    · exact .inl ⟨he, h2⟩
    · exact .inr ⟨st, he, h0, h2, h3⟩
    · exact ih h2 hl h3.2 h4
    · exact ih h2 hl h3.2 h4

theorem topItems_hasT : ∀ (n : Nat) {c c' : Cont} {st s : St}, topItems n c st = .ok c' s → s.loss = [] → HasT c → c.parsed = true → HasT c' ∧ c'.parsed = true := by
  intro n
  induction n with
  | zero => intro c c' st s h; cases h
  | succ n ih =>
    intro c c' st s h hl ht hp
    rcases topItems_step h hl with ⟨rfl, _⟩ | ⟨rfl, _⟩ | ⟨k, v, s1, s2, _, _, _, _, ⟨c1, h1, h2⟩ | ⟨c1, h1, h2⟩⟩
    · exact ⟨ht, hp⟩
    · exact ⟨ht, hp⟩
    · obtain ⟨g1, g2⟩ := mergeWs_hasT h1 ht
      exact ih h2 hl g1 (by rw [g2]; exact hp)
    · obtain ⟨g1, g2⟩ := append_hasT hp h1 (.inl ht)
      exact ih h2 hl g1 g2

theorem topItems_hasD : ∀ (n : Nat) {c c' : Cont} {st s : St}, topItems n c st = .ok c' s → s.loss = [] → HasD c → c.parsed = true → HasD c' ∧ c'.parsed = true := by
  intro n
  induction n with
  | zero => intro c c' st s h; cases h
  | succ n ih =>
    intro c c' st s h hl ht hp
    rcases topItems_step h hl with ⟨rfl, _⟩ | ⟨rfl, _⟩ | ⟨k, v, s1, s2, _, _, _, _, ⟨c1, h1, h2⟩ | ⟨c1, h1, h2⟩⟩
    · exact ⟨ht, hp⟩
    · exact ⟨ht, hp⟩
    · obtain ⟨g1, g2⟩ := mergeWs_hasT h1 ht.hasT
      exact ih h2 hl (mergeWs_hasD h1 ht) (by rw [g2]; exact hp)
    · obtain ⟨g1, g2⟩ := append_hasT hp h1 (.inl ht.hasT)
      exact ih h2 hl (append_hasD hp h1 (.inl ht)) g2

theorem parseAot_aot {n : Nat} {tb : Tbl} {name : Key} {st s : St} {v : Item} (h : parseAot n tb name st = .ok v s) : v.isTableLike = true := by
  rcases n with _ | n
  · cases h
  unfold parseAot at h
  obtain ⟨_, _, _, h⟩ := bind_ok h
  obtain ⟨_, _, _, h⟩ := bind_ok h
  obtain ⟨_, _, _, h⟩ := bind_ok h
  cases h
  rfl

theorem parseTable_table {n : Nat} {parent : Option Key} {st s : St} {p : Key × Item} (h : parseTable n parent st = .ok p s) : p.2.isTableLike = true := by
  rcases n with _ | n
  · cases h
  unfold parseTable at h
  obtain ⟨hd, _, _, h⟩ := bind_ok h
  dsimp only at h
  obtain ⟨_, _, _, h⟩ := bind_ok h
  obtain ⟨tb, _, _, h⟩ := bind_ok h
  obtain ⟨_, _, _, h⟩ := bind_ok h
  rw [getSt_bind] at h
  generalize hd.key.parts.drop _ = parts at h
  have hend : ∀ (b : Bool) (key : Key) (S : St), (if b = true then parseAot n tb hd.key >>= fun a => pure (key, a) else pure (key, Item.table tb) : P (Key × Item)) S = .ok p s →
      p.2.isTableLike = true := by
    intro b key S h
    cases b
    · cases h; rfl
    · rw [if_pos rfl] at h
      obtain ⟨a, s1, q1, h⟩ := bind_ok h
      cases h
      exact parseAot_aot q1
  rcases parts with _ | ⟨k, _ | ⟨p', r⟩⟩
  · exact hend _ _ _ h
  · exact hend _ _ _ h
  · cases h; rfl

theorem topTables_hasT : ∀ (n : Nat) {c c' : Cont} {st s : St}, topTables n c st = .ok c' s → s.loss = [] → c.parsed = true →
    (HasT c ∨ st.rest ≠ []) → HasT c' := by
  intro n
  induction n with
  | zero => intro c c' st s h; cases h
  | succ n ih =>
    intro c c' st s h hl hp ht
    unfold topTables at h
    rw [getSt_bind] at h
    by_cases hc : st.atEnd = true
    · rw [if_pos hc] at h
      cases h
      refine ht.resolve_right fun h0 => h0 (by simpa [St.atEnd] using hc)
    rw [if_neg hc] at h
    obtain ⟨⟨key, v⟩, s1, q1, h⟩ := bind_ok h
    have hv : v.isTableLike = true := parseTable_table q1
    dsimp only at h
    have hend : ∀ (v' : Item) (s2 : St), v'.isTableLike = true → (do
        let r ← wrapErr (Cont.append true c (some key) v')
        note r.2 .reordered
        topTables n r.1 : P Cont) s2 = .ok c' s → HasT c' := by
      intro v' s2 hv' h
      obtain ⟨⟨c1, mv⟩, s3, q3, h⟩ := bind_ok h
      obtain ⟨q3, hs3⟩ := wrapErr_inv q3
      obtain ⟨_, s4, q4, h⟩ := bind_ok h
      have h4 := loss_nil (mono_topTables _ _ _ _ _ h).2 hl
      have hmv := note_false q4 h4
      simp only at hmv
      rw [hmv] at q3
      obtain ⟨g1, g2⟩ := append_hasT hp q3 (.inr (.inl ⟨rfl, hv'⟩))
      exact ih h hl g2 (.inl g1)
    by_cases hx : ∃ tb, v = .table tb ∧ tb.isAot = true
    · obtain ⟨tb, rfl, ha⟩ := hx
      dsimp only at h
      rw [if_pos ha] at h
      obtain ⟨v', s2, q2, h⟩ := bind_ok h
      exact hend v' s2 (parseAot_aot q2) h
    · have h : (do
          let r ← wrapErr (Cont.append true c (some key) v)
          note r.2 .reordered
          topTables n r.1 : P Cont) s1 = .ok c' s := by
        rcases v with _ | _ | _ | _ | _ | _ | _ | _ | _ | _ | _ | tb | ⟨ts, t, nm, p⟩ | _
        all_goals first | exact h | skip
        dsimp only at h
        rw [if_neg fun h0 => hx ⟨tb, rfl, h0⟩] at h
        exact h
      exact hend v s1 hv h

theorem topTables_hasD : ∀ (n : Nat) {c c' : Cont} {st s : St}, topTables n c st = .ok c' s → s.loss = [] → c.parsed = true → HasD c → HasD c' := by
  intro n
  induction n with
  | zero => intro c c' st s h; cases h
  | succ n ih =>
    intro c c' st s h hl hp ht
    unfold topTables at h
    rw [getSt_bind] at h
    by_cases hc : st.atEnd = true
    · rw [if_pos hc] at h
      cases h
      exact ht
    rw [if_neg hc] at h
    obtain ⟨⟨key, v⟩, s1, q1, h⟩ := bind_ok h
    dsimp only at h
    have hend : ∀ (v' : Item) (s2 : St), (do
        let r ← wrapErr (Cont.append true c (some key) v')
        note r.2 .reordered
        topTables n r.1 : P Cont) s2 = .ok c' s → HasD c' := by
      intro v' s2 h
      obtain ⟨⟨c1, mv⟩, s3, q3, h⟩ := bind_ok h
      obtain ⟨q3, hs3⟩ := wrapErr_inv q3
      obtain ⟨_, s4, q4, h⟩ := bind_ok h
      have h4 := loss_nil (mono_topTables _ _ _ _ _ h).2 hl
      have hmv := note_false q4 h4
      simp only at hmv
      rw [hmv] at q3
      exact ih h hl (append_hasT hp q3 (.inl ht.hasT)).2 (append_hasD hp q3 (.inl ht))
    by_cases hx : ∃ tb, v = .table tb ∧ tb.isAot = true
    · obtain ⟨tb, rfl, ha⟩ := hx
      dsimp only at h
      rw [if_pos ha] at h
      obtain ⟨v', s2, q2, h⟩ := bind_ok h
      exact hend v' s2 h
    · have h : (do
          let r ← wrapErr (Cont.append true c (some key) v)
          note r.2 .reordered
          topTables n r.1 : P Cont) s1 = .ok c' s := by
        rcases v with _ | _ | _ | _ | _ | _ | _ | _ | _ | _ | _ | tb | ⟨ts, t, nm, p⟩ | _
        all_goals first | exact h | skip
        dsimp only at h
        rw [if_neg fun h0 => hx ⟨tb, rfl, h0⟩] at h
        exact h
      exact hend v s1 h

/-! ### the body of the document -/

/-- closed lines -/
def PreShut (es : List Entry) : Prop := ∀ e ∈ es, Spaces e.v.trivia.commentWs → FEnt e true

/-- what has been read so far: all lines are closed, or the text is over -/
structure Inv (c : Cont) (fin : Prop) : Prop where
  wf : c.WF
  parsed : c.parsed = true
  keys : c.dict = keysOf c.body
  ends : PreShut c.body ∨ (fin ∧ ∃ a e, c.body = a ++ [e] ∧ PreShut a ∧ (Spaces e.v.trivia.commentWs → FEnt e false))
  comments : ∀ e ∈ c.body, Cmt e.v.trivia.comment
  lasts : ∀ e ∈ c.body, e.key.isSome = true → ∃ x, e.v.asString.getLast? = some x ∧ x ≠ 10
  cws : ∀ e ∈ c.body, Spaces e.v.trivia.commentWs ∨ (e.key.isSome = true ∧ e.v.isTableLike = false ∧ ∀ x ∈ e.v.trivia.commentWs, isUniSpace x = true ∧ x ≠ 10 ∧ x ≠ 13)
  tabs : c.tableKeys = []

theorem PreShut.push {a : List Entry} (h : PreShut a) {e : Entry} {cl : Bool} {fin : Prop} (he : Spaces e.v.trivia.commentWs → FEnt e cl)
    (hc : cl = true ∨ fin) :
    PreShut (a ++ [e]) ∨ (fin ∧ ∃ a' e', a ++ [e] = a' ++ [e'] ∧ PreShut a' ∧ (Spaces e'.v.trivia.commentWs → FEnt e' false)) := by
  cases cl with
  | true =>
    left
    intro x hx
    rcases List.mem_append.1 hx with hx | hx
    · exact h x hx
    · rw [List.mem_singleton] at hx; subst hx; exact he
  | false =>
    right
    rcases hc with hc | hc
    · cases hc
    · exact ⟨hc, a, e, rfl, h, he⟩

theorem Inv.merge {c c' : Cont} {fin fin' : Prop} {v : Item} {cl : Bool} (h : Inv c fin) (hs : PreShut c.body) (hv : ItemHas none v cl)
    (hc : cl = true ∨ fin') (hm : mergeWs c v = some c') : Inv c' fin' := by
  unfold mergeWs at hm
  split at hm
  · rename_i k s f s' f' hb
    cases hm
    cases hv with
    | ws hv =>
    obtain ⟨a, ha⟩ := List.getLast?_eq_some_iff.1 hb
    have hd : c.body.dropLast = a := by rw [ha]; simp
    rw [hd]
    have he : FEnt (.mk k (.ws s f)) true := hs _ (by rw [ha]; simp) (fun c hc => by cases hc)
    have hk : k = none := by
      cases he with
      | ws => rfl
      | kv _ hv => exact absurd hv.2.1 (by simp [Item.isWhitespace])
    subst hk
    have hs1 : BlankText s true := by
      cases he with
      | ws h => exact h
    have hsa : PreShut a := fun x hx => hs x (by rw [ha]; simp [hx])
    have hkeys : keysOf (a ++ [.mk none (.ws (s ++ s') false)]) = keysOf c.body := by
      rw [ha, keysOf_append, keysOf_append]; rfl
    refine ⟨?_, h.parsed, ?_, ?_, ?_, ?_, ?_, h.tabs⟩
    · refine h.wf.of_shape ?_ _ _
      rw [ha]; simp [Entry.shape, Item.isTable]
    · exact h.keys.trans hkeys.symm
    · exact hsa.push (fun _ => .ws (hs1.append rfl hv) (fun h0 => by cases h0)) hc
    · intro e he
      rcases List.mem_append.1 he with he | he
      · exact h.comments e (by rw [ha]; simp [he])
      · rw [List.mem_singleton] at he; subst he; exact cmt_nil
    · intro e he hk
      rcases List.mem_append.1 he with he | he
      · exact h.lasts e (by rw [ha]; simp [he]) hk
      · rw [List.mem_singleton] at he; subst he; cases hk
    · intro e he
      rcases List.mem_append.1 he with he | he
      · exact h.cws e (by rw [ha]; simp [he])
      · rw [List.mem_singleton] at he; subst he; exact .inl Spaces.nil
  · cases hm

theorem Inv.blank {c c' : Cont} {fin fin' : Prop} {v : Item} {cl : Bool} (h : Inv c fin) (hs : PreShut c.body) (hv : ItemHas none v cl)
    (hc : cl = true ∨ fin') (ha : Cont.append true c none v = .ok (c', false)) : Inv c' fin' := by
  have hp : v.isTableLike = false := by cases hv <;> rfl
  have hw := h.wf.append ha
  rw [append_none_plain hp] at ha
  cases ha
  have he : FEnt (.mk none v) cl := by
    cases hv with
    | ws hv => exact .ws hv (fun h0 => by cases h0)
    | @cmt t _ ht hcm hne =>
      refine .cmt ht ?_
      unfold bareComment
      rcases hcm with h0 | ⟨s, h0, _⟩
      · exact absurd h0 hne
      · rw [h0, List.dropWhile_cons_of_neg (by decide)]; simp
  refine ⟨hw, h.parsed, ?_, hs.push (fun _ => he) hc, ?_, ?_, ?_, h.tabs⟩
  · rw [Cont.body_mk, keysOf_append]
    show c.dict = keysOf c.body ++ []
    rw [List.append_nil]; exact h.keys
  · intro e he
    rcases List.mem_append.1 he with he | he
    · exact h.comments e he
    · rw [List.mem_singleton] at he; subst he
      cases hv with
      | ws hv => exact cmt_nil
      | cmt _ hcm _ => exact hcm
  · intro e he hk
    rcases List.mem_append.1 he with he | he
    · exact h.lasts e he hk
    · rw [List.mem_singleton] at he; subst he; cases hk
  · intro e he
    rcases List.mem_append.1 he with he | he
    · exact h.cws e he
    · rw [List.mem_singleton] at he; subst he
      cases hv with
      | ws hv => exact .inl Spaces.nil
      | cmt ht _ _ => exact .inl ht.cws

theorem Inv.pair {c c' : Cont} {fin fin' : Prop} {k : SKey} {v : Item} {cl : Bool} (h : Inv c fin) (hs : PreShut c.body) (hv : PairHas (.single k) v cl)
    (hc : cl = true ∨ fin') (ha : Cont.append true c (some (.single k)) v = .ok (c', false))
    (hx : ∃ x, v.asString.getLast? = some x ∧ x ≠ 10) : Inv c' fin' := by
  have hw := h.wf.append ha
  have hk : mapGet k.key c.map = none := by
    have h0 := ha
    unfold Cont.append fuelFor at h0
    simp only [Key.parts] at h0
    have hno : ∀ item', c.prepare (some k) v = .ok item' → item'.isTableLike = false := by
      intro item' hp
      rw [prepare_plain hv.plain] at hp
      cases hp
      exact hv.plain
    have hr := append1_cases h0
    generalize hmv : false = mv at hr
    cases hr with
    | fresh item' _ hp hk h1 => exact hk k rfl
    | again item' _ k' i cur ct tb hp _ _ _ hi => exact absurd (hno _ hp) (by rw [hi]; simp [Item.isTableLike, Item.isTable])
    | aotAdd => cases hmv
    | toAoT => cases hmv
    | superApart item' k' i cur tb ct _ idx hp _ _ _ hi => exact absurd (hno _ hp) (by rw [hi]; simp [Item.isTableLike, Item.isTable])
    | superMerge item' k' i cur tb ct ct' mv hp _ _ _ hi => exact absurd (hno _ hp) (by rw [hi]; simp [Item.isTableLike, Item.isTable])
    | aotMerge item' k' i cur ts t nm p ts' t' nm' p' hp _ _ _ _ hi => exact absurd (hno _ hp) (by rw [hi]; simp [Item.isTableLike, Item.isAoT])
  rw [append_plain_new hv.plain hk] at ha
  have ht : c.appendTail (some k) v = c.rawAppend (some k) v := by
    unfold Cont.appendTail
    dsimp only
    rw [h.parsed, if_neg (by simp)]
  have hraw : c.rawAppend (some k) v = .ok (.mk (c.body ++ [.mk (some k) v]) (mapSet k.key [c.body.length] c.map)
        (dictSet k.key c.dict) c.parsed (if v.isTable then c.tableKeys ++ [k.key] else c.tableKeys)) := by
    unfold Cont.rawAppend
    dsimp only
    rw [hk]
  rw [ht, hraw] at ha
  cases ha
  have hnd := WF.not_mem_dict h.wf hk
  have htab : v.isTable = false := by
    have := hv.plain
    unfold Item.isTableLike at this
    rw [Bool.or_eq_false_iff] at this
    exact this.1
  refine ⟨hw, h.parsed, ?_, hs.push (fun hcw => hv.entry k rfl hcw) hc, ?_, ?_, ?_, by rw [Cont.tableKeys_mk, htab]; exact h.tabs⟩
  · rw [Cont.body_mk, keysOf_append]
    show dictSet k.key c.dict = _
    rw [dictSet_new hnd, h.keys]; rfl
  · intro e he
    rcases List.mem_append.1 he with he | he
    · exact h.comments e he
    · rw [List.mem_singleton] at he; subst he
      exact hv.comment
  · intro e he hk
    rcases List.mem_append.1 he with he | he
    · exact h.lasts e he hk
    · rw [List.mem_singleton] at he; subst he
      exact hx
  · intro e he
    rcases List.mem_append.1 he with he | he
    · exact h.cws e he
    · rw [List.mem_singleton] at he; subst he
      exact .inr ⟨rfl, hv.plain, hv.cws⟩

theorem Inv.imp {c : Cont} {p q : Prop} (h : Inv c p) (hi : p → q) : Inv c q :=
  ⟨h.wf, h.parsed, h.keys, h.ends.imp_right fun h => ⟨hi h.1, h.2⟩, h.comments, h.lasts, h.cws, h.tabs⟩

/-- the first loop: a table, or lines -/
theorem topItems_lines : ∀ (n : Nat) {c c' : Cont} {st s : St}, topItems n c st = .ok c' s → s.loss = [] → st.loss = [] → NoLoneCr st.rest →
    Inv c (st.rest = []) → (HasD c' ∧ c'.parsed = true) ∨ (Inv c' False ∧ ∃ r, s.rest = 91 :: r) ∨ (Inv c' True ∧ s.rest = []) := by
  intro n
  induction n with
  | zero => intro c c' st s h; cases h
  | succ n ih =>
    intro c c' st s h hl hst hn hi
    by_cases hend : st.rest = []
    · unfold topItems at h
      rw [getSt_bind, if_pos (by simp [St.atEnd, hend])] at h
      cases h
      exact .inr (.inr ⟨hi.imp fun _ => trivial, hend⟩)
    have hs : PreShut c.body := hi.ends.resolve_right fun h0 => hend h0.1
    rcases topItems_step h hl with ⟨rfl, rfl, h0⟩ | ⟨rfl, ⟨r, hr⟩, _⟩ | ⟨k, v, s1, s2, q1, l1, ⟨r2, _⟩, l2, h2⟩
    · exact .inr (.inl ⟨hi.imp hend, h0.resolve_left hend⟩)
    · exact .inr (.inl ⟨hi.imp hend, r, hr⟩)
    have hsuf : s1.rest <:+ st.rest := (mono_keeps parseItem_keeps _ _ _ q1).1
    have hn2 : NoLoneCr s2.rest := by rw [r2]; exact NoLoneCr.suffix hn hsuf
    obtain ⟨cl, hv, hcl⟩ := item_has hst q1 l1 hn
    rw [← r2] at hcl
    rcases h2 with ⟨c1, h1, h2⟩ | ⟨c1, h1, h2⟩
    · cases hv with
      | ws hb => exact ih h2 hl l2 hn2 (hi.merge hs (.ws hb) hcl h1)
      | cmt a b d => exact ih h2 hl l2 hn2 (hi.merge hs (.cmt a b d) hcl h1)
      | kv hp =>
        exfalso
        obtain ⟨key, u, sep, hx⟩ := (keeps_fact (parseItem_keeps st) q1 l1).pair _ _ rfl
        have := hx.simple
        unfold mergeWs at h1
        split at h1
        · cases this
        · cases h1
    · cases hv with
      | ws hb => exact ih h2 hl l2 hn2 (hi.blank hs (.ws hb) hcl h1)
      | cmt a b d => exact ih h2 hl l2 hn2 (hi.blank hs (.cmt a b d) hcl h1)
      | @kv k _ _ hp =>
        rcases hk : k.parts with _ | ⟨k1, _ | ⟨k2, r⟩⟩
        · unfold Cont.append at h1
          simp only [hk] at h1
          cases h1
        · have := hp.one k1 hk
          subst this
          obtain ⟨key, u, sep, hx⟩ := (keeps_fact (parseItem_keeps st) q1 l1).pair _ _ rfl
          obtain ⟨x, hx1, hx2⟩ := hx.last
          exact ih h2 hl l2 hn2 (hi.pair hs hp hcl h1 ⟨x, hx1, hx2.2⟩)
        · left
          obtain ⟨g1, g2⟩ := append_hasT hi.parsed h1 (.inr (.inr ⟨k, k1, k2, r, rfl, hk⟩))
          exact topItems_hasD n h2 hl (append_hasD hi.parsed h1 (.inr ⟨k, k1, k2, r, rfl, hk⟩)) g2

/-! ### the document -/

theorem isTableLike_stop (e : Entry) : e.stopParsing.v.isTableLike = e.v.isTableLike := by
  obtain ⟨k, v⟩ := e
  cases v <;> rfl

theorem stop_flat {es : List Entry} (h : ∀ e ∈ es, e.v.isTableLike = false) : es.map Entry.stopParsing = es := by
  induction es with
  | nil => rfl
  | cons e r ih =>
    rw [List.map_cons, ih fun x hx => h x (by simp [hx])]
    obtain ⟨k, v⟩ := e
    have : (Entry.mk k v).stopParsing = .mk k v.stopParsing := rfl
    rw [this, stopParsing_plain (show v.isTableLike = false from h (.mk k v) (by simp))]

/-- the lines of a document without tables that was read -/
theorem parsed_inv {s : Str} {doc : Cont} (h : parseLog s = .ok (doc, [])) (hf : Flat doc) (hn : NoLoneCr s) :
    ∃ c, Inv c True ∧ doc = .mk c.body c.map c.dict false c.tableKeys := by
  unfold parseLog at h
  rcases hp : parseDoc s (.init s) with ⟨c0, s0⟩ | ⟨e, s0⟩ <;> rw [hp] at h
  rotate_left
  · cases h
  obtain ⟨rfl, hl⟩ := Prod.mk.inj (Except.ok.inj h)
  unfold parseDoc at hp
  obtain ⟨c1, s1, q1, hp⟩ := bind_ok hp
  obtain ⟨c2, s2, q2, hp⟩ := bind_ok hp
  cases hp
  have hl1 : s1.loss = [] := loss_nil (mono_topTables _ _ _ _ _ q2).2 hl
  have hno : ¬ HasT c2 := by
    rintro ⟨e, he, h1⟩
    have := hf e.stopParsing (by rw [(stopParsing_fields c2).1]; exact List.mem_map_of_mem he)
    rw [isTableLike_stop, h1] at this
    cases this
  have hempty : Inv (.empty true) ((St.init s).rest = []) :=
    ⟨Cont.WF_empty _, rfl, rfl, .inl (by intro e he; cases he), (by intro e he; cases he), (by intro e he; cases he), (by intro e he; cases he), rfl⟩
  rcases topItems_lines _ q1 hl1 rfl hn hempty with ⟨h1, h2⟩ | ⟨h1, r, h2⟩ | ⟨h1, h2⟩
  · exact absurd (topTables_hasT _ q2 hl h2 (.inl h1.hasT)) hno
  · exact absurd (topTables_hasT _ q2 hl h1.parsed (.inr (by rw [h2]; simp))) hno
  · have hc : c2 = c1 := by
      unfold docFuel topTables at q2
      rw [getSt_bind, if_pos (by simp [St.atEnd, h2])] at q2
      cases q2
      rfl
    subst hc
    refine ⟨c2, h1, ?_⟩
    have hflat : ∀ e ∈ c2.body, e.v.isTableLike = false := by
      intro e he
      rcases ht : e.v.isTableLike with _ | _
      · rfl
      · exact absurd ⟨e, he, ht⟩ hno
    have := stop_flat hflat
    obtain ⟨b, m, d, p, tk⟩ := c2
    have hb := (stopParsing_fields (.mk b m d p tk)).1
    show Cont.mk _ _ _ _ _ = _
    have hb : b.stopParsingEntries = b.map Entry.stopParsing := hb
    rw [hb]
    have this : b.map Entry.stopParsing = b := this
    rw [this]
    rfl

theorem blank_open {s : Str} {cl : Bool} (h : BlankText s cl) (hc : cl = false) : ∃ x, s.getLast? = some x ∧ x ≠ 10 := by
  induction h with
  | nil => cases hc
  | @«open» s h hne =>
    refine ⟨_, List.getLast?_eq_some_getLast hne, fun h0 => ?_⟩
    have := h _ (List.getLast_mem hne)
    rw [h0] at this; cases this
  | line _ _ _ ih =>
    obtain ⟨x, h1, h2⟩ := ih hc
    exact ⟨x, getLast?_append_some (getLast?_append_some h1), h2⟩

theorem getLast?_append_of {a b : Str} {P : Chr → Prop} (ha : ∃ x, a.getLast? = some x ∧ P x) (hb : ∀ x ∈ b, P x) : ∃ x, (a ++ b).getLast? = some x ∧ P x := by
  rcases hb' : b.getLast? with _ | y
  · have : b = [] := by simpa using hb'
    subst this
    simpa using ha
  · exact ⟨y, getLast?_append_some hb', hb y (List.mem_of_getLast? hb')⟩

theorem spaces_ne {s : Str} (h : Spaces s) : ∀ x ∈ s, x ≠ 10 := by
  rintro x hx rfl
  have := h _ hx
  cases this

theorem cmt_ne {s : Str} (h : Cmt s) : ∀ x ∈ s, x ≠ 10 := by
  rintro x hx rfl
  rcases h with rfl | ⟨s, rfl, h⟩
  · cases hx
  · rcases List.mem_cons.1 hx with h0 | h0
    · cases h0
    · have := h _ h0
      cases this

/-- an open line does not end with a newline -/
theorem open_last {e : Entry} (h : FEnt e false) (hc : Cmt e.v.trivia.comment) (hl : e.key.isSome = true → ∃ x, e.v.asString.getLast? = some x ∧ x ≠ 10) :
    ∃ x, (e.render none none).getLast? = some x ∧ x ≠ 10 := by
  generalize hcl : false = cl at h
  cases h with
  | null => cases hcl
  | ws h hf =>
    exact blank_open h hcl.symm
  | @cmt t cl h hne =>
    obtain ⟨sp, nl, h1, h2, h3⟩ := h.trail
    have hnl : nl = [] := by
      rcases h3 with ⟨h, _⟩ | ⟨_, h⟩
      · rw [h] at hcl; cases hcl
      · exact h
    have hx : Entry.render none none (.mk none (.comment t)) = t.indent ++ t.comment ++ t.trail := rfl
    rw [hx, h1, hnl, List.append_nil]
    have hcm : t.comment ≠ [] := by
      intro h0; apply hne; unfold bareComment; rw [h0]; rfl
    have hc : Cmt t.comment := hc
    refine getLast?_append_of ?_ (spaces_ne h2)
    exact ⟨_, getLast?_append_some (List.getLast?_eq_some_getLast hcm), cmt_ne hc _ (List.getLast_mem hcm)⟩
  | @kv k v cl hk hv h =>
    obtain ⟨sp, nl, h1, h2, h3⟩ := h.trail
    have hnl : nl = [] := by
      rcases h3 with ⟨h, _⟩ | ⟨_, h⟩
      · rw [h] at hcl; cases hcl
      · exact h
    rw [simple_render hv.1]
    unfold simpleTail
    rw [h1, hnl, List.append_nil]
    obtain ⟨x, g1, g2⟩ := hl rfl
    have g1 : v.asString.getLast? = some x := g1
    have hc : Cmt v.trivia.comment := hc
    have h4 : ∃ x, (simpleHead k v.trivia none ++ v.asString).getLast? = some x ∧ x ≠ 10 := ⟨x, getLast?_append_some g1, g2⟩
    have h5 := getLast?_append_of h4 (b := v.trivia.commentWs ++ v.trivia.comment ++ sp) (fun x hx => by
      rcases List.mem_append.1 hx with hx | hx
      · rcases List.mem_append.1 hx with hx | hx
        · exact spaces_ne h.cws x hx
        · exact cmt_ne hc x hx
      · exact spaces_ne h2 x hx)
    simpa using h5

/-- the white space behind the values, in a text without unusual white space -/
theorem parsed_cws {s : Str} {doc : Cont} (h : parseLog s = .ok (doc, [])) (hf : Flat doc) (hn : NoLoneCr s) (hu : PlainSpace s) :
    ∀ e ∈ doc.body, Spaces e.v.trivia.commentWs := by
  obtain ⟨c, hi, rfl⟩ := parsed_inv h hf hn
  have hdump := parse_dumps h
  have hd : dumps (.mk c.body c.map c.dict false c.tableKeys) = entsStr none c.body := by
    have := bodyStr_ents c.body
    rw [← this]; rfl
  rw [hd] at hdump
  intro e he
  rcases hi.cws e he with h0 | ⟨hk, hp, h0⟩
  · exact h0
  · obtain ⟨k, v⟩ := e
    rcases k with _ | k
    · cases hk
    intro x hx
    obtain ⟨h1, h2, h13⟩ := h0 x hx
    have hx' : x ∈ s := by
      rw [← hdump]
      refine List.mem_flatMap.2 ⟨_, he, ?_⟩
      rw [simple_render (show v.isTableLike = false from hp)]
      have hx : x ∈ v.trivia.commentWs := hx
      unfold simpleTail
      simp [hx]
    rcases hu x hx' h1 with rfl | rfl | rfl | rfl
    · rfl
    · rfl
    · exact absurd rfl h2
    · exact absurd rfl h13

/-- A document of key/value lines that was read. -/
theorem parsed_flat {s : Str} {doc : Cont} (h : parseLog s = .ok (doc, [])) (hf : Flat doc) (hn : NoLoneCr s)
    (hw : ∀ e ∈ doc.body, Spaces e.v.trivia.commentWs) :
    FlatDoc doc ∧ (s = [] ∨ s.getLast? = some 10 → Shut doc.body) ∧ ∀ e ∈ doc.body, Cmt e.v.trivia.comment := by
  obtain ⟨c, hi, rfl⟩ := parsed_inv h hf hn
  have hdump := (parse_dumps h)
  have hw : ∀ e ∈ c.body, Spaces e.v.trivia.commentWs := hw
  have hd : dumps (.mk c.body c.map c.dict false c.tableKeys) = entsStr none c.body := by
    have := bodyStr_ents c.body
    rw [← this]; rfl
  have hwf : (Cont.mk c.body c.map c.dict false c.tableKeys).WF := hi.wf.of_shape rfl _ _
  rcases hi.ends with he | ⟨_, a, e, hb, ha, he⟩
  · have hs : Shut c.body := fun e h0 => he e h0 (hw e h0)
    refine ⟨⟨hwf, ?_, rfl, hi.keys⟩, fun _ => hs, hi.comments⟩
    have := hs.append (b := []) trivial
    rwa [List.append_nil] at this
  · have hs : Shut a := fun e h0 => ha e h0 (hw e (by rw [hb]; simp [h0]))
    have hfe := he (hw e (by rw [hb]; simp))
    refine ⟨⟨hwf, ?_, rfl, hi.keys⟩, fun hend => ?_, hi.comments⟩
    · show FlatBody c.body
      rw [hb]
      exact hs.append ⟨⟨false, hfe, .inr (by intro x hx; cases hx)⟩, trivial⟩
    · exfalso
      obtain ⟨x, h1, h2⟩ := open_last hfe (hi.comments e (by rw [hb]; simp)) (hi.lasts e (by rw [hb]; simp))
      rw [hd, hb, entsStr_append, entsStr_cons] at hdump
      have h3 : (entsStr none a ++ (Entry.render none none e ++ entsStr none [])).getLast? = some x := by
        refine getLast?_append_some ?_
        have : entsStr none ([] : List Entry) = [] := rfl
        rw [this, List.append_nil]; exact h1
      rw [hdump] at h3
      rcases hend with h0 | h0
      · rw [h0] at h3; cases h3
      · rw [h0] at h3; exact h2 (Option.some.inj h3).symm

end Tomlkit
