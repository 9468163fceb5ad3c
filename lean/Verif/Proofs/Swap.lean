import Verif.Proofs.Wrap
import Verif.Proofs.FlatOps
import Verif.Spec.Swap
/-!
# Replacing a value by a table, or a table by a value
-/
namespace Tomlkit
open Spec

theorem dumps_textOf (c : Cont) : dumps c = textOf c.body := by
  unfold dumps textOf
  rcases c with ⟨b, m, d, p, tk⟩
  show bodyStr b = b.flatMap _
  induction b with
  | nil => rfl
  | cons e r ih => rw [List.flatMap_cons, ← ih]; rfl

theorem findIdx?_some_split {α : Type} {p : α → Bool} : ∀ {l : List α} {j : Nat}, l.findIdx? p = some j →
    ∃ a x b, l = a ++ x :: b ∧ a.length = j ∧ p x = true ∧ ∀ y ∈ a, p y = false := by
  intro l
  induction l with
  | nil => intro j h; simp at h
  | cons y r ih =>
    intro j h
    rw [List.findIdx?_cons] at h
    split at h
    · rename_i hy
      cases h
      exact ⟨[], y, r, rfl, rfl, hy, fun y hy => by cases hy⟩
    · rename_i hy
      rcases hr : r.findIdx? p with _ | j' <;> rw [hr] at h
      · cases h
      · cases h
        obtain ⟨a, x, b, rfl, h2, h3, h4⟩ := ih hr
        refine ⟨y :: a, x, b, rfl, by simp [h2], h3, ?_⟩
        intro z hz
        rcases List.mem_cons.1 hz with rfl | hz
        · simpa using hy
        · exact h4 z hz

theorem firstTable_some {b : List Entry} {i j : Nat} (h : firstTableFrom b i = some j) :
    ∃ a x r, b = b.take i ++ a ++ x :: r ∧ (b.take i ++ a).length = j ∧ x.v.isTableLike = true ∧
      ∀ y ∈ a, y.v.isTableLike = false := by
  unfold firstTableFrom at h
  rcases hf : (b.drop i).findIdx? (fun e => e.v.isTableLike) with _ | q <;> rw [hf] at h
  · cases h
  · obtain ⟨a, x, r, h1, h2, h3, h4⟩ := findIdx?_some_split hf
    rw [Option.map_some] at h
    cases h
    have hlt : i ≤ b.length := by
      by_cases hl : i ≤ b.length
      · exact hl
      · rw [List.drop_eq_nil_of_le (by omega)] at h1
        simp at h1
    refine ⟨a, x, r, ?_, ?_, h3, h4⟩
    · rw [List.append_assoc, ← h1, List.take_append_drop]
    · rw [List.length_append, List.length_take, Nat.min_eq_left hlt, h2]; omega

theorem firstTable_none {b : List Entry} {i : Nat} (h : firstTableFrom b i = none) :
    ∀ y ∈ b.drop i, y.v.isTableLike = false := by
  unfold firstTableFrom at h
  rcases hf : (b.drop i).findIdx? (fun e => e.v.isTableLike) with _ | q <;> rw [hf] at h
  · intro y hy
    have := List.findIdx?_eq_none_iff.1 hf y hy
    simpa using this
  · cases h

theorem modify_at {α : Type} (a b : List α) (x : α) (f : α → α) {n : Nat} (hn : a.length = n) :
    (a ++ x :: b).modify n f = a ++ f x :: b := by
  subst hn
  induction a with
  | nil => rfl
  | cons y r ih => simp [List.modify_succ_cons, ih]

theorem get_at {α : Type} (a b : List α) (x : α) {n : Nat} (hn : a.length = n) : (a ++ x :: b)[n]? = some x := by
  subst hn; simp

/-- a blank line at the end of a table changes nothing that is held -/
theorem kept_blankLine (tb : Tbl) : Kept (.table tb) (.table tb.addBlankLine) := by
  intro x hx
  cases x <;> unfold Holds at hx ⊢
  case dict l =>
    obtain ⟨c, h1, h2, h3⟩ := hx
    rcases tb with ⟨tc, t, ia, sf, nm, dn⟩
    have hc : tc = c := by
      have : dictCont (.table (.mk tc t ia sf nm dn)) = some tc := rfl
      rw [this] at h1; cases h1; rfl
    subst hc
    refine ⟨_, rfl, h2, holdsIn_mono (fun k i hi => ?_) l h3⟩
    obtain ⟨j, e, hm, hb, he⟩ := item_single.1 hi
    refine item_single.2 ⟨j, e, hm, ?_, he⟩
    show (tc.body ++ [_])[j]? = _
    rw [List.getElem?_append_left (List.getElem?_eq_some_iff.1 hb).1]; exact hb
  all_goals first
    | exact hx
    | (rcases hx with ⟨_, _, _, h, _⟩ | ⟨_, _, _, _, h, _⟩ <;> cases h)
    | (obtain ⟨_, _, _, h⟩ := hx; cases h; done)
    | (obtain ⟨_, _, h⟩ := hx; cases h; done)
    | (obtain ⟨_, h⟩ := hx; cases h; done)

/-- the end of a replacement, spelled out -/
theorem finishReplace_at {c : Cont} {a r : List Entry} {key : Option SKey} {v : Item} (hb : c.body = a ++ .mk key v :: r)
    (old : Item) (nk : SKey) : ∃ w, (c.finishReplace old nk a.length).body = a ++ .mk key w :: r ∧ Kept v w ∧
      w.isTableLike = v.isTableLike ∧ (c.finishReplace old nk a.length).map = c.map := by
  have hk : Kept v v.invalidate := fun x hx => holds_invalidate x hx
  have h0 : (c.body.modify a.length fun e => .mk e.key e.v.invalidate) = a ++ .mk key v.invalidate :: r := by
    rw [hb, modify_at _ _ _ _ rfl]; rfl
  have hkind : v.invalidate.isTableLike = v.isTableLike := by
    rcases v with _ | _ | _ | _ | _ | _ | _ | _ | _ | _ | _ | tb | ⟨ts, t, nm, p⟩ | _ <;> rfl
  unfold Cont.finishReplace
  rw [h0]
  dsimp only
  rw [get_at _ _ _ rfl, Option.map_some, Entry.v_mk]
  generalize hw : v.invalidate = w at hk hkind
  rcases w with _ | _ | _ | _ | _ | _ | _ | _ | _ | _ | _ | tb | ⟨ts, t, nm, p⟩ | _ <;>
    try exact ⟨_, rfl, hk, hkind, rfl⟩
  dsimp only
  split
  · refine ⟨_, (modify_at _ _ _ _ rfl), kept_trans hk (kept_blankLine tb), ?_, rfl⟩
    rw [← hkind]; rfl
  · exact ⟨_, rfl, hk, hkind, rfl⟩

/-- the first half of a replacement that changes the kind -/
theorem setItem_differ {c : Cont} {k : Str} {i : Nat} {key : SKey} {old v : Item} (hm : mapGet k c.map = some [i])
    (hb : c.body[i]? = some (.mk (some key) old)) (hk : key.key = k) (hd : v.isTableLike ≠ old.isTableLike) :
    ∃ m, mapGet k m = none ∧ c.setItem k v =
      let c2 : Cont := .mk (c.body.set i Entry.nullEntry) m (dictDel k c.dict) c.parsed c.tableKeys
      match firstTableFrom c2.body i with
      | some j => (c2.insertAt j (mkKey k) v).map fun c3 => c3.finishReplace old (mkKey k) j
      | none =>
        match Cont.append true c2 (some (.single (mkKey k))) v with
        | .error e => .error e
        | .ok (c3, _) =>
          match mapGet (mkKey k).key c3.map with
          | some [j] => .ok (c3.finishReplace old (mkKey k) j)
          | _ => .error .unmodelled := by
  have hd' : (v.isTableLike != old.isTableLike) = true := by simpa using hd
  refine ⟨mapDel k (mapSet k [i] (mapDel k c.map)), by rw [mapGet_mapDel, if_pos rfl], ?_⟩
  unfold Cont.setItem
  rw [fuelFor, has_single hm]
  dsimp only
  rw [hm]
  dsimp only
  unfold Cont.replaceAt
  dsimp only
  have h0 : nullAt [] c.body = c.body := rfl
  rw [h0, hb]
  dsimp only
  rw [hd']
  simp only [Bool.true_or, if_true]
  have hkk : (mkKey k).key = k := mkKey_key k
  have hne : ((mkKey k).key != key.key) = false := by rw [hkk, hk]; simp
  rw [hne]
  simp only [Bool.false_eq_true, if_false]
  unfold Cont.remove
  rw [Cont.map_mk, hkk, hk, mapGet_mapSet, if_pos rfl]
  dsimp only
  rfl

theorem replace_by_table {c : Cont} (h : c.WF) {k : Str} {A B T : List Entry} {key : SKey} {old v : Item}
    (hb : c.body = A ++ .mk (some key) old :: (B ++ T)) (hk : key.key = k) (hold : old.isTableLike = false)
    (hv : v.isTableLike = true) (hA : NoHeader A) (hB : ∀ e ∈ B, e.v.isTableLike = false) (hT : OnlyHeaders T) :
    ∃ c' A' T' w, c.setItem k v = .ok c' ∧ A' ++ T' = A ++ Entry.nullEntry :: (B ++ T) ∧
      c'.body = A' ++ .mk (some (mkKey k)) w :: T' ∧ NoHeader A' ∧ OnlyHeaders T' ∧ Kept v w ∧ w.isTableLike = true := by
  have hi : c.body[A.length]? = some (.mk (some key) old) := by rw [hb]; exact get_at _ _ _ rfl
  have hcc := consistent_of_WF h
  obtain ⟨is, hm, hmi⟩ := hcc.reachable A.length k old ⟨key, hi, hk⟩
  have hone : is = [A.length] := by
    obtain ⟨hne, hnd⟩ := hcc.once.2 k is hm
    have hall : ∀ j ∈ is, j = A.length := by
      intro j hj
      obtain ⟨w, hw⟩ := hcc.cached k is hm j hj
      by_cases hji : j = A.length
      · exact hji
      · have := (hcc.parts j A.length k w old hw ⟨key, hi, hk⟩ hji).2
        simp [Item.isTableLike, this] at hold
    rcases is with _ | ⟨a, _ | ⟨b, r⟩⟩
    · exact absurd rfl hne
    · rw [hall a (by simp)]
    · rw [hall a (by simp), hall b (by simp)] at hnd
      simp at hnd
  subst hone
  obtain ⟨m, hm0, hset⟩ := setItem_differ (v := v) hm hi hk (by rw [hold, hv]; decide)
  have hbody : c.body.set A.length Entry.nullEntry = A ++ Entry.nullEntry :: (B ++ T) := by
    rw [hb, List.set_append_right _ _ (Nat.le_refl _)]; simp
  rw [hbody] at hset
  dsimp only at hset
  rw [Cont.body_mk] at hset
  have hpre : NoHeader (A ++ Entry.nullEntry :: B) := by
    intro e he
    rw [List.mem_append, List.mem_cons] at he
    rcases he with he | rfl | he
    · exact hA e he
    · rfl
    · unfold opensTable; rw [hB e he]; rfl
  rcases hf : firstTableFrom (A ++ Entry.nullEntry :: (B ++ T)) A.length with _ | j <;> rw [hf] at hset
  · have hnt := firstTable_none hf
    rw [List.drop_left] at hnt
    have hno : NoHeader (A ++ Entry.nullEntry :: (B ++ T)) := by
      intro e he
      rw [List.mem_append] at he
      rcases he with he | he
      · exact hA e he
      · unfold opensTable; rw [hnt e he]; rfl
    have hkk : (mkKey k).key = k := mkKey_key k
    obtain ⟨w, hw, hw1, hw2⟩ := prepare_kind (k := mkKey k) (v := v)
      (c := .mk (A ++ Entry.nullEntry :: (B ++ T)) m (dictDel k c.dict) c.parsed c.tableKeys)
    have hwt : w.isTableLike = true := by unfold Item.isTableLike at hv ⊢; rw [hw1, hw2]; exact hv
    rw [append_new hw (by rw [hkk]; exact hm0)] at hset
    have htail : (Cont.mk (A ++ Entry.nullEntry :: (B ++ T)) m (dictDel k c.dict) c.parsed c.tableKeys).appendTail
        (some (mkKey k)) w = .ok (.mk (A ++ Entry.nullEntry :: (B ++ T) ++ [.mk (some (mkKey k)) w])
          (mapSet k [(A ++ Entry.nullEntry :: (B ++ T)).length] m) (dictSet k (dictDel k c.dict)) c.parsed
          (if w.isTable then c.tableKeys ++ [k] else c.tableKeys)) := by
      unfold Cont.appendTail
      have hdot : (mkKey k).dotted = false := by unfold mkKey; split <;> rfl
      dsimp only
      rw [hwt, hdot]
      simp only [Bool.not_true, Bool.or_false, Bool.and_false, Bool.false_eq_true, if_false]
      unfold Cont.rawAppend
      dsimp only
      rw [Cont.map_mk, hkk, hm0]
      rfl
    rw [htail] at hset
    simp only [Except.map] at hset
    rw [Cont.map_mk, hkk, mapGet_mapSet, if_pos rfl] at hset
    dsimp only at hset
    obtain ⟨w', h1, h2, h3, _⟩ := finishReplace_at (a := A ++ Entry.nullEntry :: (B ++ T)) (r := []) (key := some (mkKey k)) (v := w)
      (c := .mk (A ++ Entry.nullEntry :: (B ++ T) ++ [.mk (some (mkKey k)) w])
          (mapSet k [(A ++ Entry.nullEntry :: (B ++ T)).length] m) (dictSet k (dictDel k c.dict)) c.parsed
          (if w.isTable then c.tableKeys ++ [k] else c.tableKeys)) rfl old (mkKey k)
    exact ⟨_, A ++ Entry.nullEntry :: (B ++ T), [], w', hset, by simp, h1, hno, (fun e he => by cases he),
      kept_trans (kept_prepare hw) h2, by rw [h3]; exact hwt⟩
  · obtain ⟨a, x, r, h1, h2, h3, h4⟩ := firstTable_some hf
    rw [List.take_left] at h1 h2
    have hno : NoHeader (A ++ a) := by
      intro e he
      rw [List.mem_append] at he
      rcases he with he | he
      · exact hA e he
      · unfold opensTable; rw [h4 e he]; rfl
    have hxr : OnlyHeaders (x :: r) := by
      have h1' : A ++ Entry.nullEntry :: (B ++ T) = A ++ (a ++ x :: r) := by rw [h1, List.append_assoc]
      have h5 := List.append_cancel_left h1'
      have h6 : ∀ e ∈ x :: r, e ∈ T := by
        rw [← List.cons_append] at h5
        rcases List.append_eq_append_iff.1 h5 with ⟨q, hq1, hq2⟩ | ⟨q, hq1, hq2⟩
        · intro e he
          rw [hq2]; exact List.mem_append_right _ he
        · rcases q with _ | ⟨y, q⟩
          · rw [List.nil_append] at hq2
            rw [hq2]; exact fun e he => he
          · exfalso
            rw [List.cons_append, List.cons.injEq] at hq2
            have hx : x ∈ Entry.nullEntry :: B := by rw [hq1, hq2.1]; simp
            rcases List.mem_cons.1 hx with rfl | hx
            · cases h3
            · rw [hB x hx] at h3; cases h3
      exact fun e he => hT e (h6 e he)
    have hins : (Cont.mk (A ++ Entry.nullEntry :: (B ++ T)) m (dictDel k c.dict) c.parsed c.tableKeys).insertAt j (mkKey k) v =
        .ok (.mk (A ++ a ++ .mk (some (mkKey k)) v :: x :: r)
          (mapSet k [j] (shiftFrom j m)) (dictSet k (dictDel k c.dict)) c.parsed c.tableKeys) := by
      have hkk : (mkKey k).key = k := mkKey_key k
      have hlen : ¬ j ≥ (A ++ Entry.nullEntry :: (B ++ T)).length := by
        rw [h1, ← h2]; simp
      unfold Cont.insertAt
      rw [Cont.body_mk, if_neg hlen, hv, Cont.map_mk, hkk]
      have hms : mapGet k (shiftFrom j m) = none := by rw [mapGet_shift, hm0]; rfl
      dsimp only
      rw [hms]
      simp only [Bool.not_true, Bool.and_false, Bool.false_eq_true, if_false]
      rw [h1, insertIdx_take _ _ _ h2]
      rfl
    dsimp only at hset
    rw [hins] at hset
    simp only [Except.map] at hset
    obtain ⟨w', g1, g2, g3, _⟩ := finishReplace_at (a := A ++ a) (r := x :: r) (key := some (mkKey k)) (v := v)
      (c := .mk (A ++ a ++ .mk (some (mkKey k)) v :: x :: r)
          (mapSet k [j] (shiftFrom j m)) (dictSet k (dictDel k c.dict)) c.parsed c.tableKeys) rfl old (mkKey k)
    rw [h2] at g1
    exact ⟨_, A ++ a, x :: r, w', hset, h1.symm, g1, hno, hxr, g2, by rw [g3]; exact hv⟩

/-- a plain value instead of a table -/
theorem replace_by_value {c : Cont} {k : Str} {A B : List Entry} {key : SKey} {old v : Item} (hp : c.parsed = false)
    (hb : c.body = A ++ .mk (some key) old :: B) (hk : key.key = k) (hm : mapGet k c.map = some [A.length])
    (hold : old.isTableLike = true) (hv : v.isTableLike = false)
    (hside : NoHeader A ∨ ∀ e ∈ B, e.v.isTableLike = false) :
    ∃ c' A0 A' T', c.setItem k v = .ok c' ∧ A0 ++ T' = A ++ Entry.nullEntry :: B ∧
      c'.body = A' ++ .mk (some (mkKey k)) v :: T' ∧ ClosesLine A0 A' ∧ NoHeader A0 := by
  have hi : c.body[A.length]? = some (.mk (some key) old) := by rw [hb]; exact get_at _ _ _ rfl
  obtain ⟨m, hm0, hset⟩ := setItem_differ (v := v) hm hi hk (by rw [hold, hv]; decide)
  have hkk : (mkKey k).key = k := mkKey_key k
  have hbody : c.body.set A.length Entry.nullEntry = A ++ Entry.nullEntry :: B := by
    rw [hb, List.set_append_right _ _ (Nat.le_refl _)]; simp
  rw [hbody] at hset
  dsimp only at hset
  rw [Cont.body_mk] at hset
  rcases hf : firstTableFrom (A ++ Entry.nullEntry :: B) A.length with _ | j <;> rw [hf] at hset
  · rw [append_plain_new hv (by rw [hkk]; exact hm0)] at hset
    obtain ⟨c', b1, b1', b2, h1, h2, h3, h4, h5, h6, _⟩ := appendTail_place
      (c := .mk (A ++ Entry.nullEntry :: B) m (dictDel k c.dict) c.parsed c.tableKeys) hp (k := mkKey k) hv (by rw [hkk]; exact hm0)
    rw [h1] at hset
    simp only [Except.map] at hset
    rw [h6] at hset
    dsimp only at hset
    have hlen := closesLine_length h4
    rw [finishReplace_plain (e := .mk (some (mkKey k)) v) (by rw [h3]; exact get_at _ _ _ hlen) hv] at hset
    exact ⟨c', b1, b1', b2, hset, h2.symm, h3, h4, h5⟩
  · obtain ⟨a, x, r, h1, h2, h3, h4⟩ := firstTable_some hf
    rw [List.take_left] at h1 h2
    have hxB : x ∈ B := by
      have h1' : A ++ Entry.nullEntry :: B = A ++ (a ++ x :: r) := by rw [h1, List.append_assoc]
      have h5 := List.append_cancel_left h1'
      rcases a with _ | ⟨y, a⟩
      · rw [List.nil_append] at h5
        cases h5; cases h3
      · rw [List.cons_append] at h5
        cases h5; simp
    have hA : NoHeader A := by
      rcases hside with h | h
      · exact h
      · rw [h x hxB] at h3; cases h3
    have hno : NoHeader (A ++ a) := by
      intro e he
      rw [List.mem_append] at he
      rcases he with he | he
      · exact hA e he
      · unfold opensTable; rw [h4 e he]; rfl
    have hjpos : 0 < j := by
      have h1' : A ++ Entry.nullEntry :: B = A ++ (a ++ x :: r) := by rw [h1, List.append_assoc]
      have h5 := List.append_cancel_left h1'
      rcases a with _ | ⟨y, a⟩
      · rw [List.nil_append] at h5
        cases h5; cases h3
      · rw [← h2]; simp; omega
    have hcl : addTrailNl (j - 1) (A ++ a ++ x :: r) = addTrailNl (j - 1) (A ++ a) ++ x :: r := by
      unfold addTrailNl
      have h7 := take_modify (A ++ a ++ x :: r) j (fun e => if e.v.isWhitespace || endsWithWs e.v || hasNl e.v.trivia.trail then e
        else .mk e.key (e.v.setTrivia { e.v.trivia with trail := e.v.trivia.trail ++ [10] })) hjpos
      rw [List.take_left' h2, List.drop_left' h2] at h7
      rw [← h7.1]
      conv => lhs; rw [← List.take_append_drop j (List.modify _ _ _)]
      rw [h7.2]
    have hins : (Cont.mk (A ++ Entry.nullEntry :: B) m (dictDel k c.dict) c.parsed c.tableKeys).insertAt j (mkKey k) v =
        .ok (.mk (addTrailNl (j - 1) (A ++ a) ++ .mk (some (mkKey k)) v :: x :: r)
          (mapSet k [j] (shiftFrom j m)) (dictSet k (dictDel k c.dict)) c.parsed c.tableKeys) := by
      have hlen : ¬ j ≥ (A ++ Entry.nullEntry :: B).length := by
        rw [h1, ← h2]; simp
      unfold Cont.insertAt
      rw [Cont.body_mk, if_neg hlen, hv, Cont.map_mk, hkk]
      have hms : mapGet k (shiftFrom j m) = none := by rw [mapGet_shift, hm0]; rfl
      dsimp only
      rw [hms]
      simp only [Bool.not_false, Bool.and_true, decide_eq_true_eq, hjpos, if_true]
      rw [h1, hcl, insertIdx_take _ _ _ (by rw [addTrailNl_length]; exact h2)]
      rfl
    dsimp only at hset
    rw [hins] at hset
    simp only [Except.map] at hset
    rw [finishReplace_plain (e := .mk (some (mkKey k)) v)
      (by rw [Cont.body_mk]; exact get_at _ _ _ (by rw [addTrailNl_length]; exact h2)) hv] at hset
    refine ⟨_, A ++ a, addTrailNl (j - 1) (A ++ a), x :: r, hset, h1.symm, rfl, ?_, hno⟩
    have := addTrailNl_closes (A ++ a)
    rw [h2] at this; exact this

end Tomlkit
