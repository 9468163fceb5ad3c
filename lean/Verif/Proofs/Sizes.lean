import Verif.Proofs.DeepAppend
/-!
# Sizes: how much appending can grow a container
-/
namespace Tomlkit

theorem entriesSize_eq (b : List Entry) : b.entriesSize = (b.map fun e => 1 + e.v.size).sum := by
  induction b with
  | nil => rfl
  | cons e r ih => cases e; simp [List.entriesSize, Entry.size, ih]

theorem tablesSize_eq (ts : List Tbl) : ts.tablesSize = (ts.map Tbl.size).sum := by
  induction ts with
  | nil => rfl
  | cons e r ih => simp [List.tablesSize, ih]

theorem Cont.size_eq (c : Cont) : c.size = 1 + (c.body.map fun e => 1 + e.v.size).sum := by
  cases c; simp [Cont.size, entriesSize_eq]

theorem Tbl.size_eq (t : Tbl) : t.size = 1 + t.cont.size := by cases t; rfl

theorem Item.size_table (t : Tbl) : (Item.table t).size = 1 + t.size := rfl
theorem Item.size_aot (ts t n p) : (Item.aot ts t n p).size = 1 + (ts.map Tbl.size).sum := by
  rw [← tablesSize_eq]; rfl

theorem Item.size_pos (v : Item) : 1 ≤ v.size := by
  cases v <;> simp [Item.size]

theorem Tbl.size_setTrivia (t : Tbl) (tr : Trivia) : (t.setTrivia tr).size = t.size := by cases t; rfl

theorem Item.size_setTrivia (v : Item) (tr : Trivia) : (v.setTrivia tr).size = v.size := by
  cases v <;> first | rfl | (simp [Item.setTrivia, Item.size_table, Tbl.size_setTrivia])

theorem Item.size_setName (v : Item) (s : Str) : (v.setName s).size = v.size := by
  rcases v with _ | _ | _ | _ | _ | _ | _ | _ | _ | _ | _ | ⟨⟨⟩⟩ | _ | _ <;> rfl

mutual
theorem Tbl.size_invalidate : (t : Tbl) → t.invalidate.size = t.size
  | .mk (.mk b m d p tk) t a s n dp => by
    unfold Tbl.invalidate
    simp only [Tbl.size, Cont.size]
    rw [invalidateBody_size m 0 b]
theorem invalidateBody_size (m : List (Str × List Nat)) (i : Nat) : (b : List Entry) →
    (invalidateBody m i b).entriesSize = b.entriesSize
  | [] => rfl
  | e :: r => by
    unfold invalidateBody
    simp only [List.entriesSize]
    rw [invalidateBody_size m (i + 1) r, Entry.size_invalidate m i e]
theorem Entry.size_invalidate (m : List (Str × List Nat)) (i : Nat) : (e : Entry) → (e.invalidate m i).size = e.size
  | .mk (some k) v => by
    unfold Entry.invalidate
    simp only [Entry.size]
    split
    · rw [Item.size_invalidate v]
    · rfl
  | .mk none v => rfl
theorem Item.size_invalidate : (v : Item) → v.invalidate.size = v.size
  | .table tb => by
    unfold Item.invalidate
    rw [Item.size_table, Item.size_table, Tbl.size_invalidate tb]
  | .aot ts t n p => by
    unfold Item.invalidate
    simp only [Item.size]
    rw [invalidateAll_size ts]
  | .ws .. | .comment .. | .integer .. | .float .. | .bool .. | .datetime .. | .date ..
  | .time .. | .str .. | .array .. | .inline .. | .null .. => rfl
theorem invalidateAll_size : (ts : List Tbl) → (invalidateAll ts).tablesSize = ts.tablesSize
  | [] => rfl
  | t :: r => by
    unfold invalidateAll
    simp only [List.tablesSize]
    rw [invalidateAll_size r, Tbl.size_invalidate t]
end

theorem sum_insertIdx (l : List Nat) (i x : Nat) (h : i ≤ l.length) : (l.insertIdx i x).sum = l.sum + x := by
  induction l generalizing i with
  | nil => cases i with
    | zero => simp
    | succ i => simp at h
  | cons a r ih =>
    cases i with
    | zero => simp; omega
    | succ i => simp only [List.insertIdx_succ_cons, List.sum_cons]; rw [ih i (by simpa using h)]; omega

theorem map_insertIdx' {α β : Type} (f : α → β) (l : List α) (i : Nat) (x : α) :
    (l.insertIdx i x).map f = (l.map f).insertIdx i (f x) := map_insertIdx f l i x

theorem clampIndex_le (i : Int) (n : Nat) : clampIndex i n ≤ n := by
  unfold clampIndex
  dsimp only
  split <;> split <;> (try split) <;> omega

theorem nlIndent_size (t : Tbl) : (nlIndent t).size = t.size := by
  unfold nlIndent; split
  · rfl
  · exact Tbl.size_setTrivia _ _

theorem aotInsert_size (own : Trivia) (parsed : Bool) (ts : List Tbl) (i : Int) (v : Tbl) :
    ((aotInsert own parsed ts i v).map Tbl.size).sum = (ts.map Tbl.size).sum + v.size := by
  have hle := clampIndex_le i ts.length
  have hmain : ∀ w : Tbl, w.size = v.size → ∀ k, k ≤ ts.length → ((if parsed = true then ts.insertIdx k w else
      (if (k + 1 < ts.length && ((ts[k + 1]?).map Tbl.truthy).getD false) = true
        then ts.modify (k + 1) nlIndent else ts).insertIdx k
        (match (if (0 < k && 0 < ts.length) = true then ts[k - 1]? else none) with
          | some p => if p.truthy then nlIndent w else w
          | none => w)).map Tbl.size).sum = (ts.map Tbl.size).sum + v.size := by
    intro w hw k hk
    split
    · rw [map_insertIdx, sum_insertIdx _ _ _ (by simpa using hk), hw]
    · have h1 : ((if (k + 1 < ts.length && ((ts[k + 1]?).map Tbl.truthy).getD false) = true
        then ts.modify (k + 1) nlIndent else ts).map Tbl.size) = ts.map Tbl.size := by
        split
        · exact map_modify_same _ _ _ _ nlIndent_size
        · rfl
      rw [map_insertIdx, sum_insertIdx, h1]
      · congr 1
        split
        · split
          · rw [nlIndent_size, hw]
          · exact hw
        · exact hw
      · rw [h1]; simpa using hk
  unfold aotInsert
  rcases spaceRun own.indent with _ | ind
  · exact hmain _ rfl _ hle
  · exact hmain _ (Tbl.size_setTrivia _ _) _ hle

theorem aotFold_size (own : Trivia) (parsed : Bool) (body ts : List Tbl) :
    ((body.foldl (aotAppend own parsed) ts).map Tbl.size).sum = (ts.map Tbl.size).sum + (body.map Tbl.size).sum := by
  induction body generalizing ts with
  | nil => simp
  | cons b r ih =>
    rw [List.foldl_cons, ih]
    unfold aotAppend
    rw [aotInsert_size]; simp; omega

theorem mkAoT_size (body : List Tbl) (n : Option Str) (p : Bool) : (mkAoT body n p).size = 1 + (body.map Tbl.size).sum := by
  unfold mkAoT
  rw [Item.size_aot, aotFold_size]; simp

mutual
theorem Item.size_deepCopy : (v : Item) → v.deepCopy.size = v.size
  | .table tb => by
    unfold Item.deepCopy
    rw [Item.size_table, Item.size_table, Tbl.size_deepCopy tb]
  | .aot ts t n p => by
    unfold Item.deepCopy
    rw [mkAoT_size, ← tablesSize_eq, deepCopyTables_size ts]
    rfl
  | .ws .. | .comment .. | .integer .. | .float .. | .bool .. | .datetime .. | .date ..
  | .time .. | .str .. | .array .. | .inline .. | .null .. => rfl
theorem Tbl.size_deepCopy : (t : Tbl) → t.deepCopy.size = t.size
  | .mk c t a s n d => by
    unfold Tbl.deepCopy
    simp only [Tbl.size]; rw [Cont.size_deepCopy c]
theorem Cont.size_deepCopy : (c : Cont) → c.deepCopy.size = c.size
  | .mk b m d p tk => by
    unfold Cont.deepCopy
    simp only [Cont.size]; rw [deepCopyEntries_size b]
theorem deepCopyEntries_size : (b : List Entry) → b.deepCopyEntries.entriesSize = b.entriesSize
  | [] => rfl
  | e :: r => by
    unfold List.deepCopyEntries
    simp only [List.entriesSize]; rw [deepCopyEntries_size r, Entry.size_deepCopy e]
theorem Entry.size_deepCopy : (e : Entry) → e.deepCopy.size = e.size
  | .mk k v => by
    unfold Entry.deepCopy
    simp only [Entry.size]; rw [Item.size_deepCopy v]
theorem deepCopyTables_size : (ts : List Tbl) → ts.deepCopyTables.tablesSize = ts.tablesSize
  | [] => rfl
  | t :: r => by
    unfold List.deepCopyTables
    simp only [List.tablesSize]; rw [deepCopyTables_size r, Tbl.size_deepCopy t]
end

theorem prepare_size {c : Cont} {key : Option SKey} {item item' : Item}
    (hp : c.prepare key item = .ok item') : item'.size = item.size := by
  unfold Cont.prepare at hp
  have hsome : ∀ i, (if (item.isTableLike && item.name?.isNone) = true then key.map fun k => item.setName k.key
      else some item) = some i → i.size = item.size := by
    intro i hi
    split at hi
    · obtain ⟨k, _, rfl⟩ := Option.map_eq_some_iff.1 hi
      exact Item.size_setName _ _
    · cases hi; rfl
  revert hp
  generalize (if (item.isTableLike && item.name?.isNone) = true then key.map fun k => item.setName k.key
      else some item) = o at hsome
  intro hp
  rcases o with _ | i
  · cases hp
  have hi := hsome i rfl
  rcases i with _ | _ | _ | _ | _ | _ | _ | _ | _ | _ | _ | tb | ⟨ts, t, nm, p⟩ | _
  case table =>
    dsimp only at hp
    have htb : (if c.parsed = true then tb else tb.invalidate).size = tb.size := by
      split
      · rfl
      · exact Tbl.size_invalidate tb
    generalize (if c.parsed = true then tb else tb.invalidate) = tb' at hp htb
    rw [Item.size_table] at hi
    split at hp <;> cases hp
    · rw [Item.size_table, Tbl.size_setTrivia]; omega
    · rw [Item.size_table]; omega
  case aot =>
    dsimp only at hp
    split at hp
    · have hts := invalidateAll_size ts
      rw [Item.size_aot, ← tablesSize_eq] at hi
      rcases hv : invalidateAll ts with _ | ⟨a, r⟩ <;> rw [hv] at hp hts <;> dsimp only at hp
      · cases hp
        rw [Item.size_aot, ← tablesSize_eq]; omega
      · split at hp <;> cases hp
        · rw [Item.size_aot, ← tablesSize_eq]; omega
        · rw [Item.size_aot, ← tablesSize_eq]
          simp only [List.tablesSize, Tbl.size_setTrivia] at hts ⊢; omega
    · cases hp; exact hi
  all_goals (cases hp; exact hi)

/-! ### append -/

/-- total size of a list of entries -/
def bsz (b : List Entry) : Nat := (b.map fun e => 1 + e.v.size).sum

theorem Cont.size_bsz (c : Cont) : c.size = 1 + bsz c.body := c.size_eq

theorem bsz_append (a b : List Entry) : bsz (a ++ b) = bsz a + bsz b := by simp [bsz]

theorem bsz_insertIdx (b : List Entry) (i : Nat) (e : Entry) (h : i ≤ b.length) :
    bsz (b.insertIdx i e) = bsz b + (1 + e.v.size) := by
  unfold bsz
  rw [map_insertIdx, sum_insertIdx _ _ _ (by simpa using h)]

theorem sum_set (l : List Nat) (i x : Nat) (h : i < l.length) : (l.set i x).sum + l[i] = l.sum + x := by
  induction l generalizing i with
  | nil => simp at h
  | cons a r ih =>
    cases i with
    | zero => simp; omega
    | succ i =>
      have := ih i (by simpa using h)
      simp; omega

theorem bsz_set {b : List Entry} {i : Nat} {e cur : Entry} (h : b[i]? = some cur) :
    bsz (b.set i e) + (1 + cur.v.size) = bsz b + (1 + e.v.size) := by
  obtain ⟨hi, rfl⟩ := List.getElem?_eq_some_iff.1 h
  have := sum_set (b.map fun e => 1 + e.v.size) i (1 + e.v.size) (by simpa using hi)
  rw [List.getElem_map] at this
  unfold bsz
  rw [List.map_set]; exact this

theorem addTrailNl_size (i : Nat) (b : List Entry) : bsz (addTrailNl i b) = bsz b := by
  unfold bsz addTrailNl
  congr 1
  apply map_modify_same
  intro e
  split
  · rfl
  · simp [Item.size_setTrivia]

theorem rawAppend_size {c c' : Cont} {key : Option SKey} {item : Item} (hr : c.rawAppend key item = .ok c') :
    c'.size = c.size + 1 + item.size := by
  rw [Cont.size_bsz, Cont.size_bsz, rawAppend_body hr, bsz_append]
  simp [bsz]; omega

theorem insertAt_size {c c' : Cont} {i : Nat} {k : SKey} {item : Item} (hr : c.insertAt i k item = .ok c') :
    c'.size = c.size + 1 + item.size := by
  unfold Cont.insertAt at hr
  split at hr
  · cases hr
  · rename_i hi
    cases hr
    rw [Cont.size_bsz, Cont.size_bsz]
    simp only [Cont.body_mk]
    have hb : bsz (if (decide (0 < i) && !item.isTableLike) = true then addTrailNl (i - 1) c.body else c.body) = bsz c.body := by
      split
      · exact addTrailNl_size _ _
      · rfl
    have hl : (if (decide (0 < i) && !item.isTableLike) = true then addTrailNl (i - 1) c.body else c.body).length = c.body.length := by
      split
      · unfold addTrailNl; rw [List.length_modify]
      · rfl
    rw [bsz_insertIdx _ _ _ (by rw [hl]; omega), hb]; simp; omega

theorem appendTail_size {c c' : Cont} {key : Option SKey} {item : Item} (hr : c.appendTail key item = .ok c') :
    c'.size = c.size + 1 + item.size := by
  unfold Cont.appendTail at hr
  rcases key with _ | k <;> dsimp only at hr
  · exact rawAppend_size hr
  · split at hr
    · split at hr
      · exact insertAt_size hr
      · have := rawAppend_size hr
        rw [this, Cont.size_bsz, Cont.size_bsz c, Cont.body_mk, addTrailNl_size]
    · exact rawAppend_size hr

theorem setAt_size {c : Cont} {i : Nat} {cur : Entry} (h : c.body[i]? = some cur) (v : Item) :
    (c.setAt i cur v).size + cur.v.size = c.size + v.size := by
  have := bsz_set (e := .mk cur.key v) h
  unfold Cont.setAt
  rw [Cont.size_bsz, Cont.size_bsz]
  simp only [Cont.body_mk]
  have hv : (Entry.mk cur.key v).v = v := rfl
  rw [hv] at this; omega

theorem le_sum_of_mem {l : List Nat} {a : Nat} (h : a ∈ l) : a ≤ l.sum := by
  induction l with
  | nil => cases h
  | cons b r ih =>
    rw [List.sum_cons]
    rcases List.mem_cons.1 h with rfl | h
    · omega
    · have := ih h; omega

theorem bsz_mem' {b : List Entry} {e : Entry} (h : e ∈ b) : 1 + e.v.size ≤ bsz b :=
  le_sum_of_mem (List.mem_map.2 ⟨e, h, rfl⟩)

theorem bsz_mem {b : List Entry} {i : Nat} {e : Entry} (h : b[i]? = some e) : 1 + e.v.size ≤ bsz b :=
  bsz_mem' (List.mem_of_getElem? h)

theorem nullAt_bsz (is : List Nat) : ∀ (b : List Entry), bsz (nullAt is b) ≤ bsz b := by
  induction is with
  | nil => intro b; exact Nat.le_refl _
  | cons i r ih =>
    intro b
    have h1 := ih (b.set i Entry.nullEntry)
    refine Nat.le_trans h1 ?_
    rcases hb : b[i]? with _ | e
    · rw [List.set_eq_of_length_le]
      · exact Nat.le_refl _
      · exact List.getElem?_eq_none_iff.1 hb
    · have := bsz_set (e := Entry.nullEntry) hb
      have h2 : Entry.nullEntry.v.size = 1 := rfl
      have := e.v.size_pos
      omega

theorem nullAt_bsz_mem {is : List Nat} : ∀ {b : List Entry} {i : Nat} {cur : Entry}, i ∈ is → b[i]? = some cur →
    bsz (nullAt is b) + cur.v.size ≤ bsz b + 1 := by
  induction is with
  | nil => intro b i cur h; cases h
  | cons j r ih =>
    intro b i cur h hb
    have h2 : Entry.nullEntry.v.size = 1 := rfl
    by_cases hij : j = i
    · subst hij
      have h1 := nullAt_bsz r (b.set j Entry.nullEntry)
      have h3 := bsz_set (e := Entry.nullEntry) hb
      show bsz (nullAt r (b.set j Entry.nullEntry)) + _ ≤ _
      omega
    · have hr : i ∈ r := by
        rcases List.mem_cons.1 h with h | h
        · exact absurd h.symm hij
        · exact h
      have h1 := ih (b := b.set j Entry.nullEntry) (i := i) (cur := cur) hr (by rw [List.getElem?_set_ne hij]; exact hb)
      show bsz (nullAt r (b.set j Entry.nullEntry)) + _ ≤ _
      have h3 : bsz (b.set j Entry.nullEntry) ≤ bsz b := nullAt_bsz [j] b
      omega

theorem lastEntry_get {c : Cont} {k : Str} {i : Nat} {e : Entry} (hl : c.lastEntry k = some (i, e)) :
    c.body[i]? = some e ∧ ∃ is, mapGet k c.map = some is ∧ is.getLast? = some i := by
  unfold Cont.lastEntry at hl
  split at hl
  · cases hl
  · rename_i is his
    split at hl
    · cases hl
    · rename_i j hj
      obtain ⟨x, hx, h⟩ := Option.map_eq_some_iff.1 hl
      cases h
      exact ⟨hx, is, his, hj⟩

theorem replaceByAoT_size {c c' : Cont} {k : SKey} {ct tb : Tbl} {i : Nat} {cur : Entry}
    (hl : c.lastEntry k.key = some (i, cur)) (hc : cur.v = .table ct)
    (hr : c.replaceByAoT k (mkAoT [ct, tb] none c.parsed) = .ok c') : c'.size ≤ c.size + tb.size := by
  obtain ⟨hb, is, his, hlast⟩ := lastEntry_get hl
  unfold Cont.replaceByAoT at hr
  rw [his] at hr
  rcases is with _ | ⟨idx, others⟩ <;> dsimp only at hr
  · cases hr
  cases hr
  rw [Cont.size_bsz, Cont.size_bsz]
  simp only [Cont.body_mk]
  have hcur : cur.v.size = 1 + ct.size := by rw [hc]; rfl
  have hnew : (Entry.mk (some k) (mkAoT [ct, tb] none c.parsed).invalidate).v.size = 1 + ct.size + tb.size := by
    show (mkAoT [ct, tb] none c.parsed).invalidate.size = _
    rw [Item.size_invalidate, mkAoT_size]; simp; omega
  rcases others with _ | ⟨o, r⟩
  · simp only [List.getLast?_singleton, Option.some.injEq] at hlast
    subst hlast
    have := bsz_set (e := Entry.mk (some k) (mkAoT [ct, tb] none c.parsed).invalidate) hb
    rw [hnew] at this
    show 1 + bsz (List.set c.body _ _) ≤ _
    omega
  · have hi : i ∈ o :: r := by
      rw [List.getLast?_cons_cons] at hlast
      exact List.mem_of_getLast? hlast
    have h1 := nullAt_bsz_mem hi hb
    rcases hx : (nullAt (o :: r) c.body)[idx]? with _ | old
    · rw [List.set_eq_of_length_le (List.getElem?_eq_none_iff.1 hx)]
      omega
    · have h2 := bsz_set (e := Entry.mk (some k) (mkAoT [ct, tb] none c.parsed).invalidate) hx
      rw [hnew] at h2
      have := old.v.size_pos
      omega

/-- folding appends over a list of entries -/
theorem tblFold_size {n : Nat} {al : Bool} (ih : ∀ {t : Tbl} {key : Option SKey} {item : Item} {t' : Tbl} {mv : Bool},
      Tbl.append1 n al t key item = .ok (t', mv) → t'.size ≤ t.size + item.size + 1)
    (l : List Entry) : ∀ {p q : Tbl × Bool}, foldE (fun (p : Tbl × Bool) (e : Entry) =>
          (Tbl.append1 n al p.1 e.key e.v).map fun q => (q.1, p.2 || q.2)) p l = .ok q →
      q.1.size ≤ p.1.size + bsz l := by
  induction l with
  | nil => intro p q h; cases h; simp [bsz]
  | cons e r ihl =>
    intro p q h
    simp only [foldE] at h
    rcases hx : Tbl.append1 n al p.1 e.key e.v with er | ⟨t1, m1⟩ <;> rw [hx] at h <;>
      simp only [Except.map] at h
    · cases h
    · have h1 := ihl h
      have h2 := ih hx
      have h3 : bsz (e :: r) = 1 + e.v.size + bsz r := by simp [bsz]
      simp only at h1
      omega

theorem setTriviaAt_size (i : Nat) (f : Trivia → Trivia) (b : List Entry) : bsz (setTriviaAt i f b) = bsz b := by
  unfold bsz setTriviaAt
  congr 1
  apply map_modify_same
  intro e
  show 1 + (e.v.setTrivia _).size = _
  rw [Item.size_setTrivia]

theorem append1_size : ∀ n, (∀ {al validate : Bool} {c : Cont} {key : Option SKey} {item : Item} {c' : Cont} {mv : Bool},
      Cont.append1 n al validate c key item = .ok (c', mv) → c'.size ≤ c.size + item.size + 1) ∧
    (∀ {al : Bool} {t : Tbl} {key : Option SKey} {item : Item} {t' : Tbl} {mv : Bool},
      Tbl.append1 n al t key item = .ok (t', mv) → t'.size ≤ t.size + item.size + 1) := by
  intro n
  induction n with
  | zero =>
    constructor
    · intro _ _ _ _ _ _ _ h; rw [Cont.append1] at h; cases h
    · intro _ _ _ _ _ _ h; rw [Tbl.append1] at h; cases h
  | succ n ih =>
    constructor
    · intro al validate c key item c' mv hr
      cases append1_cases hr with
      | fresh item' _ hp hk ht => have := appendTail_size ht; have := prepare_size hp; omega
      | again item' _ k i cur ct tb hp hk hl hcv hi' ht => have := appendTail_size ht; have := prepare_size hp; omega
      | aotAdd item' k i cur tb ts t nm p hp hk hal hl hcv hi' ha =>
        have h1 := setAt_size (lastEntry_get hl).1 (.aot (aotAppend t p ts tb) t nm p)
        have hps := prepare_size hp
        rw [hi', Item.size_table] at hps
        rw [hcv, Item.size_aot, Item.size_aot] at h1
        unfold aotAppend at h1 ⊢
        rw [aotInsert_size] at h1
        omega
      | toAoT item' k i cur tb ct _ hp hk hal hl hcv hi' ha hr2 =>
        have hps := prepare_size hp
        rw [hi', Item.size_table] at hps
        have := replaceByAoT_size hl hcv hr2
        omega
      | superApart item' k i cur tb ct _ idx hp hk hl hcv hi' hs hs' hidx hr2 hv =>
        have hps := prepare_size hp
        split at hr2
        · have := insertAt_size hr2; omega
        · have := rawAppend_size hr2; omega
      | superMerge item' k i cur tb ct ct' mv hp hk hl hcv hi' hs hs' hd hd' hf =>
        have hps := prepare_size hp
        rw [hi', Item.size_table, Tbl.size_eq, Cont.size_bsz] at hps
        have h1 := setAt_size (lastEntry_get hl).1 (.table ct')
        rw [hcv, Item.size_table, Item.size_table] at h1
        have h2 := tblFold_size ih.2 _ hf
        simp only [Tbl.size_deepCopy] at h2
        omega
      | aotMerge item' k i cur ts t nm p ts' t' nm' p' hp hk hal hl hcv hi' =>
        have hps := prepare_size hp
        rw [hi', Item.size_aot] at hps
        have h1 := setAt_size (lastEntry_get hl).1 (.aot (ts.foldl (aotAppend t' p') ts') t' nm' p')
        rw [hcv, Item.size_aot, Item.size_aot, aotFold_size] at h1
        omega
    · intro al t key item t' mv hr
      rw [Tbl.append1] at hr
      rcases hx : Cont.append1 n al true t.cont key item with er | ⟨c, m1⟩ <;> rw [hx] at hr <;> dsimp only at hr
      · cases hr
      have hc := ih.1 hx
      have hset : ∀ c' : Cont, (t.setCont c').size = 1 + c'.size := by intro c'; cases t; rfl
      have ht := t.size_eq
      split at hr
      · cases hr
      rcases hsp : spaceRun t.trivia.indent with _ | ind <;> rw [hsp] at hr <;> dsimp only at hr
      · cases hr; rw [hset]; omega
      split at hr
      · cases hr
      split at hr
      · cases hr
      split at hr
      · cases hr; rw [hset]; omega
      split at hr
      · cases hr
      · cases hr
        rw [hset, Cont.size_bsz, Cont.body_mk, setTriviaAt_size]
        rw [Cont.size_bsz] at hc; omega

end Tomlkit
