import Verif.Proofs.Nests
import Verif.Proofs.CopyData
import Verif.Proofs.Insert
/-!
# What an item that was read means

An item means a value when reading it gives this value, and this stays so for copies of the item, with other blanks around it, with
another name, and when reading is over. A table that dotted keys make may be in several parts.
-/
namespace Tomlkit
open _root_.Spec Tomlkit.Spec

theorem Cont.stopParsing_item {c : Cont} {k : Str} {i : Item} (h : c.item k = .ok (.inl i)) : c.stopParsing.item k = .ok (.inl i.stopParsing) := by
  rw [item_single] at h ⊢
  obtain ⟨n, e, h1, h2, h3⟩ := h
  obtain ⟨f1, f2, _⟩ := stopParsing_fields c
  refine ⟨n, e.stopParsing, by rw [f2]; exact h1, ?_, ?_⟩
  · rw [f1, List.getElem?_map, h2]; rfl
  · cases e; simp only [Entry.v] at h3; subst h3; rfl

theorem stopParsing_dict (c : Cont) : c.stopParsing.dict = c.dict := by cases c; rfl

mutual
theorem holds_stopParsing : ∀ (v : PyVal) {i : Item}, Holds v i → Holds v i.stopParsing
  | .bool _, _, h => by unfold Holds at h ⊢; obtain ⟨_, rfl⟩ := h; exact ⟨_, rfl⟩
  | .int _, _, h => by unfold Holds at h ⊢; obtain ⟨_, _, rfl⟩ := h; exact ⟨_, _, rfl⟩
  | .str _, _, h => by unfold Holds at h ⊢; obtain ⟨_, _, _, rfl⟩ := h; exact ⟨_, _, _, rfl⟩
  | .date _, _, h => by unfold Holds at h ⊢; obtain ⟨_, _, rfl⟩ := h; exact ⟨_, _, rfl⟩
  | .time _, _, h => by unfold Holds at h ⊢; obtain ⟨_, _, rfl⟩ := h; exact ⟨_, _, rfl⟩
  | .datetime _, _, h => by unfold Holds at h ⊢; obtain ⟨_, _, rfl⟩ := h; exact ⟨_, _, rfl⟩
  | .float _, _, h => by unfold Holds at h ⊢; obtain ⟨_, _, rfl⟩ := h; exact ⟨_, _, rfl⟩
  | .none, _, h => by unfold Holds at h; exact h.elim
  | .list l, i, h => by
    unfold Holds at h ⊢
    rcases h with ⟨gs, t, m, rfl, h⟩ | ⟨ts, t, n, p, rfl, h⟩
    · left
      exact ⟨gs, t, m, rfl, h⟩
    · right
      refine ⟨_, _, _, _, by unfold Item.stopParsing; rfl, ?_⟩
      rw [stopParsingTables_eq]
      have := holdsAll_stopParsing l h
      rw [List.map_map] at this ⊢
      exact this
  | .dict l, i, h => by
    unfold Holds at h ⊢
    obtain ⟨c, hc, h1, h2⟩ := h
    cases i <;> simp only [dictCont, Option.some.injEq, reduceCtorEq] at hc
    · subst hc
      exact ⟨_, rfl, h1, h2⟩
    · rename_i tb
      subst hc
      refine ⟨tb.cont.stopParsing, by cases tb; rfl, by rw [stopParsing_dict]; exact h1, holdsIn_stopParsing l h2⟩
termination_by v => sizeOf v
theorem holdsAll_stopParsing : ∀ (l : List PyVal) {is : List Item}, HoldsAll l is → HoldsAll l (is.map Item.stopParsing)
  | [], _, h => by unfold HoldsAll at h ⊢; subst h; rfl
  | v :: r, _, h => by
    unfold HoldsAll at h ⊢
    obtain ⟨i, is', rfl, h1, h2⟩ := h
    exact ⟨_, _, rfl, holds_stopParsing v h1, holdsAll_stopParsing r h2⟩
termination_by l => sizeOf l
theorem holdsIn_stopParsing : ∀ (l : List PyPair) {c : Cont}, HoldsIn l c → HoldsIn l c.stopParsing
  | [], _, _ => by unfold HoldsIn; trivial
  | .mk k v :: r, c, h => by
    unfold HoldsIn at h ⊢
    refine ⟨?_, holdsIn_stopParsing r h.2⟩
    have := h.1
    unfold HoldsPair at this ⊢
    obtain ⟨i, h1, h2⟩ := this
    exact ⟨_, Cont.stopParsing_item h1, holds_stopParsing v h2⟩
termination_by l => sizeOf l
end

theorem PW.ord (c : Cont) (h : PW c) : c.dict = dictOfBody c.body := h.order

/-! ## The relation -/

/-- a relation that what happens to items while a document is read respects -/
structure Sound (M : PyVal → Item → Prop) : Prop where
  trivia : ∀ {v i} t, M v i → M v (i.setTrivia t)
  name : ∀ {v i} n, M v i → M v (i.setName n)
  copy : ∀ {v i}, i.Good PW → M v i → M v i.deepCopy
  stop : ∀ {v i}, M v i → M v i.stopParsing
  kind : ∀ {v i}, M v i → i.isWhitespace = false ∧ i.isComment = false ∧ i.isNull = false
  unwrap : ∀ {v i}, M v i → ∃ n0, ∀ n ≥ n0, i.unwrap n = .ok v

/-- reading the item gives this value, now and after what happens to it while a document is read -/
def Means (v : PyVal) (i : Item) : Prop := ∃ M, Sound M ∧ M v i

theorem sound_means : Sound Means where
  trivia := fun t ⟨M, h, h1⟩ => ⟨M, h, h.trivia t h1⟩
  name := fun n ⟨M, h, h1⟩ => ⟨M, h, h.name n h1⟩
  copy := fun hg ⟨M, h, h1⟩ => ⟨M, h, h.copy hg h1⟩
  stop := fun ⟨M, h, h1⟩ => ⟨M, h, h.stop h1⟩
  kind := fun ⟨_, h, h1⟩ => h.kind h1
  unwrap := fun ⟨_, h, h1⟩ => h.unwrap h1

theorem sound_holds : Sound Holds where
  trivia := fun t h => holds_setTrivia t h
  name := fun n h => holds_setName n h
  copy := fun hg h => holds_deepCopy PW.ord _ hg h
  stop := fun h => holds_stopParsing _ h
  kind := fun h => holds_kind h
  unwrap := fun h => holds_unwrap _ h

theorem Means.of {v : PyVal} {i : Item} (h : Holds v i) : Means v i := ⟨_, sound_holds, h⟩

theorem means_setTrivia {v : PyVal} {i : Item} (t : Trivia) (h : Means v i) : Means v (i.setTrivia t) := sound_means.trivia t h
theorem means_setName {v : PyVal} {i : Item} (n : Str) (h : Means v i) : Means v (i.setName n) := sound_means.name n h
theorem means_deepCopy {v : PyVal} {i : Item} (hg : i.Good PW) (h : Means v i) : Means v i.deepCopy := sound_means.copy hg h
theorem means_stopParsing {v : PyVal} {i : Item} (h : Means v i) : Means v i.stopParsing := sound_means.stop h
theorem means_kind {v : PyVal} {i : Item} (h : Means v i) : i.isWhitespace = false ∧ i.isComment = false ∧ i.isNull = false := sound_means.kind h
theorem means_unwrap {v : PyVal} {i : Item} (h : Means v i) : ∃ n0, ∀ n ≥ n0, i.unwrap n = .ok v := sound_means.unwrap h

theorem means_unique {v w : PyVal} {i : Item} (h1 : Means v i) (h2 : Means w i) : v = w := by
  obtain ⟨n, hn⟩ := means_unwrap h1
  obtain ⟨m, hm⟩ := means_unwrap h2
  have a := hn (n + m) (by omega)
  have b := hm (n + m) (by omega)
  rw [a] at b
  exact Except.ok.inj b

/-- the items mean the values, one by one -/
def MeansAll : List PyVal → List Item → Prop
  | [], is => is = []
  | v :: r, is => ∃ i is', is = i :: is' ∧ Means v i ∧ MeansAll r is'

/-- reading the key gives this value, which is in one place or in the parts of a table -/
inductive MeansKey (c : Cont) (k : Str) (w : PyVal) : Prop
  | one (i : Item) (hi : c.item k = .ok (.inl i)) (h : Means w i)
  | parts (is : List Nat) (U : List (List Str × PyVal)) (l : List PyPair) (hi : c.item k = .ok (.inr is)) (hw : w = .dict l)
      (h : DotEnts Means U ((tablesAt c.body is).flatMap fun t => t.cont.body)) (hn : Nest U l)

/-- reading each key gives its value -/
def MeansIn (l : List PyPair) (c : Cont) : Prop := ∀ k w, .mk k w ∈ l → MeansKey c k w

theorem MeansIn.nil (c : Cont) : MeansIn [] c := fun _ _ h => by cases h

theorem meansIn_append {c : Cont} {l m : List PyPair} (h1 : MeansIn l c) (h2 : MeansIn m c) : MeansIn (l ++ m) c :=
  fun k w h => (List.mem_append.1 h).elim (h1 k w) (h2 k w)

theorem MeansIn.single {c : Cont} {k : Str} {w : PyVal} (h : MeansKey c k w) : MeansIn [.mk k w] c := by
  intro k' w' hm
  cases List.mem_singleton.1 hm
  exact h

theorem meansAll_mem : ∀ {l : List PyVal} {is : List Item}, MeansAll l is → ∀ i ∈ is, ∃ v, Means v i
  | [], is, h, i, hi => by unfold MeansAll at h; subst h; cases hi
  | v :: r, is, h, i, hi => by
    unfold MeansAll at h
    obtain ⟨j, is', rfl, h1, h2⟩ := h
    rcases List.mem_cons.1 hi with rfl | hi
    · exact ⟨v, h1⟩
    · exact meansAll_mem h2 i hi

theorem meansAll_of : ∀ {l : List PyVal} {is : List Item}, HoldsAll l is → MeansAll l is
  | [], _, h => by unfold HoldsAll at h; exact h
  | v :: r, _, h => by
    unfold HoldsAll at h
    obtain ⟨j, is', rfl, h1, h2⟩ := h
    exact ⟨j, is', rfl, .of h1, meansAll_of h2⟩

theorem meansAll_unwrap : ∀ (l : List PyVal) {is : List Item}, MeansAll l is → ∃ n0, ∀ n ≥ n0, unwrapAll n is = .ok l
  | [], is, h => by
    unfold MeansAll at h; subst h
    refine ⟨1, fun n hn => ?_⟩
    obtain ⟨m, rfl⟩ : ∃ m, n = m + 1 := ⟨n - 1, by omega⟩
    rw [unwrapAll]
  | v :: r, is, h => by
    unfold MeansAll at h
    obtain ⟨i, is', rfl, h1, h2⟩ := h
    obtain ⟨n1, hn1⟩ := means_unwrap h1
    obtain ⟨n2, hn2⟩ := meansAll_unwrap r h2
    refine ⟨n1 + n2 + 1, fun n hn => ?_⟩
    obtain ⟨m, rfl⟩ : ∃ m, n = m + 1 := ⟨n - 1, by omega⟩
    rw [unwrapAll, hn1 m (by omega)]
    dsimp only
    rw [hn2 m (by omega)]; rfl

theorem meansAll_map {f : Item → Item} : ∀ (l : List PyVal) {is : List Item}, (∀ v, ∀ i ∈ is, Means v i → Means v (f i)) → MeansAll l is →
    MeansAll l (is.map f)
  | [], _, _, h => by unfold MeansAll at h ⊢; subst h; rfl
  | v :: r, _, hf, h => by
    unfold MeansAll at h ⊢
    obtain ⟨i, is', rfl, h1, h2⟩ := h
    exact ⟨_, _, rfl, hf v i (by simp) h1, meansAll_map r (fun v j hj => hf v j (by simp [hj])) h2⟩

theorem meansAll_append : ∀ {l m : List PyVal} {is js : List Item}, MeansAll l is → MeansAll m js → MeansAll (l ++ m) (is ++ js)
  | [], _, _, _, h, h' => by unfold MeansAll at h; subst h; exact h'
  | v :: r, _, _, _, h, h' => by
    unfold MeansAll at h
    obtain ⟨i, is', rfl, h1, h2⟩ := h
    exact ⟨i, _, rfl, h1, meansAll_append h2 h'⟩

theorem aotFold_means (own : Trivia) (p : Bool) : ∀ (ts acc : List Tbl) (l l0 : List PyVal), MeansAll l (ts.map Item.table) →
    MeansAll l0 (acc.map Item.table) → MeansAll (l0 ++ l) ((ts.foldl (aotAppend own p) acc).map Item.table)
  | [], acc, l, l0, h, h0 => by
    rcases l with _ | ⟨v, l⟩
    · rw [List.append_nil]; exact h0
    · unfold MeansAll at h; obtain ⟨_, _, h, _⟩ := h; cases h
  | t :: r, acc, l, l0, h, h0 => by
    rcases l with _ | ⟨v, l⟩
    · unfold MeansAll at h; cases h
    · unfold MeansAll at h
      obtain ⟨i, is', e, h1, h2⟩ := h
      rw [List.map_cons] at e
      cases e
      obtain ⟨t', ht', hk⟩ := aotAppend_end own p acc t
      rw [List.foldl_cons, ht', List.append_cons]
      refine aotFold_means own p r _ l _ h2 ?_
      rw [List.map_append]
      have hv : Means v (.table t') := by
        rcases hk with rfl | ⟨tr, rfl⟩
        · exact h1
        · exact means_setTrivia tr h1
      exact meansAll_append h0 ⟨_, _, rfl, hv, rfl⟩

/-! ## Arrays and arrays of tables -/

theorem good_printed {W : Cont → Prop} {gs : List AGroup} (hg : ∀ g ∈ gs, g.Good W) : ∀ j ∈ printed gs, j.Good W := by
  intro j hj
  induction gs with
  | nil => cases hj
  | cons g r ih =>
    cases g with
    | noval => exact ih (fun g hg' => hg g (by simp [hg'])) hj
    | val a v b c =>
      rw [printed] at hj
      split at hj
      · exact ih (fun g hg' => hg g (by simp [hg'])) hj
      · rcases List.mem_cons.1 hj with rfl | hj
        · have := hg _ (List.mem_cons_self ..)
          unfold AGroup.Good at this; exact this
        · exact ih (fun g hg' => hg g (by simp [hg'])) hj

theorem means_array {l : List PyVal} {gs : List AGroup} (t : Trivia) (m : Bool) (h : MeansAll l (printed gs)) : Means (.list l) (.array gs t m) := by
  refine ⟨fun v i => Means v i ∨ ∃ l gs t m, v = .list l ∧ i = .array gs t m ∧ MeansAll l (printed gs), ?_, .inr ⟨l, gs, t, m, rfl, rfl, h⟩⟩
  constructor
  · rintro v i t (h | ⟨l, gs, t, m, rfl, rfl, h⟩)
    · exact .inl (means_setTrivia _ h)
    · exact .inr ⟨l, gs, _, m, rfl, rfl, h⟩
  · rintro v i n (h | ⟨l, gs, t, m, rfl, rfl, h⟩)
    · exact .inl (means_setName _ h)
    · exact .inr ⟨l, gs, _, m, rfl, rfl, h⟩
  · rintro v i hg (h | ⟨l, gs, t, m, rfl, rfl, h⟩)
    · exact .inl (means_deepCopy hg h)
    · right
      unfold Item.Good at hg
      rw [goodGroups_iff] at hg
      refine ⟨l, _, t, m, rfl, by unfold Item.deepCopy; rfl, ?_⟩
      unfold groupValues
      rw [printed_groupLoop, deepCopyGroups_eq, groupItems_data (fun i hi => by
        obtain ⟨v, hv⟩ := meansAll_mem h i hi
        obtain ⟨a, b, c⟩ := means_kind hv
        simp [Item.isData, a, b, c])]
      show MeansAll l ([] ++ _)
      rw [List.nil_append]
      exact meansAll_map l (fun v j hj hv => means_deepCopy (good_printed hg j hj) hv) h
  · rintro v i (h | ⟨l, gs, t, m, rfl, rfl, h⟩)
    · exact .inl (means_stopParsing h)
    · exact .inr ⟨l, gs, _, m, rfl, rfl, h⟩
  · rintro v i (h | ⟨l, gs, t, m, rfl, rfl, h⟩)
    · exact means_kind h
    · exact ⟨rfl, rfl, rfl⟩
  · rintro v i (h | ⟨l, gs, t, m, rfl, rfl, h⟩)
    · exact means_unwrap h
    · obtain ⟨n0, hn0⟩ := meansAll_unwrap l h
      refine ⟨n0 + 1, fun n hn => ?_⟩
      obtain ⟨m, rfl⟩ : ∃ m, n = m + 1 := ⟨n - 1, by omega⟩
      unfold Item.unwrap
      try dsimp only
      refine (congrArg (fun x => Except.map PyVal.list (unwrapAll m x)) (unwrap_elems gs fun i hi => by
        obtain ⟨v, hv⟩ := meansAll_mem h i hi; exact means_kind hv)).trans ?_
      rw [hn0 m (by omega)]
      rfl

theorem meansAll_deepCopy {l : List PyVal} {ts : List Tbl} (hg : ∀ t ∈ ts, t.Good PW) (h : MeansAll l (ts.map Item.table)) :
    MeansAll l ((ts.map Tbl.deepCopy).map Item.table) := by
  have := meansAll_map (f := Item.deepCopy) l (fun v i hi hv => by
    obtain ⟨t, ht, rfl⟩ := List.mem_map.1 hi
    exact means_deepCopy (by unfold Item.Good; exact hg t ht) hv) h
  rw [List.map_map] at this ⊢
  exact this

theorem means_aot {a : List PyVal} {ts : List Tbl} (h : MeansAll a (ts.map Item.table)) (t : Trivia) (nm : Option Str) (p : Bool) :
    Means (.list a) (.aot ts t nm p) := by
  refine ⟨fun v i => Means v i ∨ ∃ l ts t n p, v = .list l ∧ i = .aot ts t n p ∧ MeansAll l (ts.map Item.table), ?_, .inr ⟨a, ts, t, nm, p, rfl, rfl, h⟩⟩
  constructor
  · rintro v i t (h | ⟨l, gs, t, m, p, rfl, rfl, h⟩)
    · exact .inl (means_setTrivia _ h)
    · exact .inr ⟨l, gs, _, m, p, rfl, rfl, h⟩
  · rintro v i n (h | ⟨l, gs, t, m, p, rfl, rfl, h⟩)
    · exact .inl (means_setName _ h)
    · exact .inr ⟨l, gs, _, _, p, rfl, rfl, h⟩
  · rintro v i hg (h | ⟨l, ts, t, m, p, rfl, rfl, h⟩)
    · exact .inl (means_deepCopy hg h)
    · right
      unfold Item.Good at hg
      refine ⟨l, _, _, _, _, rfl, by unfold Item.deepCopy mkAoT; rfl, ?_⟩
      rw [deepCopyTables_eq]
      have := aotFold_means { trail := [] } p (ts.map Tbl.deepCopy) [] l [] (meansAll_deepCopy ((goodTables_iff ts).1 hg) h) rfl
      simpa using this
  · rintro v i (h | ⟨l, ts, t, m, p, rfl, rfl, h⟩)
    · exact .inl (means_stopParsing h)
    · right
      refine ⟨l, _, _, _, _, rfl, by unfold Item.stopParsing; rfl, ?_⟩
      rw [stopParsingTables_eq]
      have := meansAll_map (f := Item.stopParsing) l (fun v i _ hv => means_stopParsing hv) h
      rw [List.map_map] at this ⊢
      exact this
  · rintro v i (h | ⟨l, gs, t, m, p, rfl, rfl, h⟩)
    · exact means_kind h
    · exact ⟨rfl, rfl, rfl⟩
  · rintro v i (h | ⟨l, gs, t, m, p, rfl, rfl, h⟩)
    · exact means_unwrap h
    · obtain ⟨n0, hn0⟩ := meansAll_unwrap l h
      refine ⟨n0 + 1, fun n hn => ?_⟩
      obtain ⟨m, rfl⟩ : ∃ m, n = m + 1 := ⟨n - 1, by omega⟩
      unfold Item.unwrap
      try dsimp only
      rw [hn0 m (by omega)]
      rfl

/-! ## Tables -/

theorem DotEnt.copy {p : List Str} {v : PyVal} {e : Entry} (h : DotEnt Means p v e) (hg : e.v.Good PW) : DotEnt Means p v e.deepCopy := by
  induction h with
  | leaf h hi => exact .leaf (means_deepCopy hg h) (by rename_i i _; cases i <;> first | rfl | cases hi)
  | @deeper k a i tb p v hd hs ha hn hb hm hdict h ih =>
    have hc : tb.cont.Good PW := by
      simp only [Entry.v] at hg
      unfold Item.Good at hg
      exact (Tbl.good_iff tb).1 hg
    have hgi : i.Good PW := ((Cont.good_iff tb.cont).1 hc).2 (.mk (some a) i) (by rw [hb]; simp)
    rcases tb with ⟨⟨b, m, d, ps, tk⟩, t, ia, sf, nm, dn⟩
    simp only [Tbl.cont, Cont.body, Cont.map, Cont.dict] at hb hm hdict
    subst hb
    refine .deeper (a := a) (i := i.deepCopy) hd hs ha hn rfl hm ?_ (ih hgi)
    rfl

theorem DotEnts.copy {L : List (List Str × PyVal)} {b : List Entry} (h : DotEnts Means L b) (hg : ∀ e ∈ b, e.v.Good PW) :
    DotEnts Means L (b.map Entry.deepCopy) := by
  induction h with
  | nil => exact .nil
  | @skip i L b hi _ ih =>
    refine .skip ?_ (ih fun e he => hg e (List.mem_cons_of_mem _ he))
    cases i <;> first | rfl | cases hi
  | cons he _ ih => exact .cons (he.copy (hg _ (List.mem_cons_self ..))) (ih fun e he => hg e (List.mem_cons_of_mem _ he))

theorem DotEnt.stop {p : List Str} {v : PyVal} {e : Entry} (h : DotEnt Means p v e) : DotEnt Means p v e.stopParsing := by
  induction h with
  | leaf h hi => exact .leaf (means_stopParsing h) (by rename_i i _; cases i <;> first | rfl | cases hi)
  | @deeper k a i tb p v hd hs ha hn hb hm hdict h ih =>
    rcases tb with ⟨⟨b, m, d, ps, tk⟩, t, ia, sf, nm, dn⟩
    simp only [Tbl.cont, Cont.body, Cont.map, Cont.dict] at hb hm hdict
    subst hb
    exact .deeper (a := a) (i := i.stopParsing) hd hs ha hn rfl hm hdict ih

theorem DotEnts.stop {L : List (List Str × PyVal)} {b : List Entry} (h : DotEnts Means L b) : DotEnts Means L (b.map Entry.stopParsing) := by
  induction h with
  | nil => exact .nil
  | @skip i L b hi _ ih =>
    refine .skip ?_ ih
    cases i <;> first | rfl | cases hi
  | cons he _ ih => exact .cons he.stop ih

theorem tablesAt_map {f : Entry → Entry} {g : Tbl → Tbl} (h : ∀ k v, (f (.mk k v)).v = match v with | .table t => .table (g t) | v => (f (.mk k v)).v)
    (h' : ∀ e, (f e).v.isTable = e.v.isTable) (b : List Entry) (is : List Nat) : tablesAt (b.map f) is = (tablesAt b is).map g := by
  unfold tablesAt
  rw [List.map_filterMap]
  congr 1
  funext i
  rw [List.getElem?_map]
  rcases b[i]? with _ | ⟨k, v⟩
  · rfl
  · have h2 := h' (.mk k v)
    have h1 := h k v
    simp only [Option.map_some]
    rcases hf : f (.mk k v) with ⟨k', v'⟩
    rw [hf] at h1 h2
    simp only [Entry.v] at h1 h2
    cases v <;> cases v' <;> first | rfl | (cases h2; done) | (cases h1; rfl)

theorem tablesAt_deepCopy (b : List Entry) (is : List Nat) : tablesAt (b.map Entry.deepCopy) is = (tablesAt b is).map Tbl.deepCopy :=
  tablesAt_map (fun k v => by cases v <;> rfl) (fun e => by rcases e with ⟨k, v⟩; cases v <;> rfl) b is

theorem tablesAt_stop (b : List Entry) (is : List Nat) : tablesAt (b.map Entry.stopParsing) is = (tablesAt b is).map Tbl.stopParsing :=
  tablesAt_map (fun k v => by cases v <;> rfl) (fun e => by rcases e with ⟨k, v⟩; cases v <;> rfl) b is

theorem item_many {c : Cont} {k : Str} {is : List Nat} : c.item k = .ok (.inr is) ↔ mapGet k c.map = some is ∧ is.length ≠ 1 := by
  unfold Cont.item
  rcases mapGet k c.map with _ | is'
  · simp
  rcases is' with _ | ⟨a, _ | ⟨b, r⟩⟩
  · dsimp only
    constructor
    · intro h; cases h; exact ⟨rfl, by simp⟩
    · rintro ⟨h, _⟩; cases h; rfl
  · dsimp only
    constructor
    · intro h
      exfalso
      rcases hb : c.body[a]? with _ | e <;> rw [hb] at h <;> cases h
    · rintro ⟨h, h1⟩; cases h; exact absurd rfl h1
  · dsimp only
    constructor
    · intro h; cases h; exact ⟨rfl, by simp⟩
    · rintro ⟨h, _⟩; cases h; rfl

theorem item_parts {c c' : Cont} {k : Str} {is : List Nat} (hm : c'.map = c.map) (h : c.item k = .ok (.inr is)) : c'.item k = .ok (.inr is) := by
  rw [item_many] at h ⊢
  rw [hm]; exact h

theorem meansKey_deepCopy {c : Cont} (hg : c.Good PW) {k : Str} {w : PyVal} (h : MeansKey c k w) : MeansKey c.deepCopy k w := by
  have hgc := (Cont.good_iff c).1 hg
  cases h with
  | one i hi h =>
    refine .one i.deepCopy (Cont.deepCopy_item hi) (means_deepCopy ?_ h)
    obtain ⟨n, e, _, g2, g3⟩ := item_single.1 hi
    rw [← g3]
    exact hgc.2 e (List.mem_of_getElem? g2)
  | parts is U l hi hw h hn =>
    refine .parts is U l (item_parts (by cases c; rfl) hi) hw ?_ hn
    rw [Cont.deepCopy_body, tablesAt_deepCopy]
    have := h.copy fun e he => by
      obtain ⟨t, ht, he⟩ := List.mem_flatMap.1 he
      obtain ⟨e', he', hv⟩ := mem_tablesAt ht
      have h1 := hgc.2 e' he'
      rw [hv] at h1
      unfold Item.Good at h1
      exact ((Cont.good_iff _).1 ((Tbl.good_iff t).1 h1)).2 e he
    rw [List.map_flatMap] at this
    rw [List.flatMap_map]
    refine Eq.mp (congrArg _ ?_) this
    congr 1
    funext t
    cases t
    simp only [Tbl.deepCopy, Tbl.cont]
    rw [Cont.deepCopy_body]

theorem meansKey_stopParsing {c : Cont} {k : Str} {w : PyVal} (h : MeansKey c k w) : MeansKey c.stopParsing k w := by
  obtain ⟨f1, f2, _⟩ := stopParsing_fields c
  cases h with
  | one i hi h => exact .one i.stopParsing (Cont.stopParsing_item hi) (means_stopParsing h)
  | parts is U l hi hw h hn =>
    refine .parts is U l (item_parts f2 hi) hw ?_ hn
    rw [f1, tablesAt_stop]
    have := h.stop
    rw [List.map_flatMap] at this
    rw [List.flatMap_map]
    refine Eq.mp (congrArg _ ?_) this
    congr 1
    funext t
    cases t
    simp only [Tbl.stopParsing, Tbl.cont]
    rw [(stopParsing_fields _).1]

theorem meansIn_deepCopy {c : Cont} {l : List PyPair} (hg : c.Good PW) (h : MeansIn l c) : MeansIn l c.deepCopy :=
  fun k w hm => meansKey_deepCopy hg (h k w hm)

theorem meansIn_stopParsing {c : Cont} {l : List PyPair} (h : MeansIn l c) : MeansIn l c.stopParsing :=
  fun k w hm => meansKey_stopParsing (h k w hm)

theorem meansKey_unwrap {c : Cont} {k : Str} {w : PyVal} (h : MeansKey c k w) : ∃ n0, ∀ n ≥ n0, unwrapKey n c k = .ok w := by
  cases h with
  | one i hi h => exact unwrapKey_item hi (means_unwrap h)
  | parts is U l hi hw h hn =>
    subst hw
    exact unwrapKey_parts hi h hn fun pc hpc => dot_unwrap (fun v i h => means_unwrap h) c.size hpc hn (parts_depth h)

theorem meansIn_unwrap {c : Cont} {l : List PyPair} (hd : c.dict = l.map PyPair.key) (h : MeansIn l c) : ∃ n0, ∀ n ≥ n0, Cont.unwrap n c = .ok l :=
  Cont.unwrap_of hd fun k w hm => meansKey_unwrap (h k w hm)

theorem means_dict {l : List PyPair} {c : Cont} {i : Item} (hc : dictCont i = some c) (hd : c.dict = l.map PyPair.key) (h : MeansIn l c) :
    Means (.dict l) i := by
  refine ⟨fun v i => Means v i ∨ ∃ l c, v = .dict l ∧ dictCont i = some c ∧ c.dict = l.map PyPair.key ∧ MeansIn l c, ?_, .inr ⟨l, c, rfl, hc, hd, h⟩⟩
  constructor
  · rintro v i t (h | ⟨l, c, rfl, hc, hd, h⟩)
    · exact .inl (means_setTrivia _ h)
    · refine .inr ⟨l, c, rfl, ?_, hd, h⟩
      rw [← hc]
      rcases i with _ | _ | _ | _ | _ | _ | _ | _ | _ | _ | _ | ⟨c, t, a, s, n, d⟩ | _ | _ <;> rfl
  · rintro v i n (h | ⟨l, c, rfl, hc, hd, h⟩)
    · exact .inl (means_setName _ h)
    · refine .inr ⟨l, c, rfl, ?_, hd, h⟩
      rw [← hc]
      rcases i with _ | _ | _ | _ | _ | _ | _ | _ | _ | _ | _ | ⟨c, t, a, s, n, d⟩ | _ | _ <;> rfl
  · rintro v i hg (h | ⟨l, c, rfl, hc, hd, h⟩)
    · exact .inl (means_deepCopy hg h)
    · right
      have hgc : c.Good PW := by
        cases i <;> simp only [dictCont, Option.some.injEq, reduceCtorEq] at hc
        · subst hc; unfold Item.Good at hg; exact hg
        · subst hc; unfold Item.Good at hg
          exact (Tbl.good_iff _).1 hg
      refine ⟨l, c.deepCopy, rfl, ?_, ?_, meansIn_deepCopy hgc h⟩
      · cases i <;> simp only [dictCont, Option.some.injEq, reduceCtorEq] at hc
        · subst hc; unfold Item.deepCopy; rfl
        · rename_i tb; subst hc; unfold Item.deepCopy; cases tb; rfl
      · rw [← hd, PW.ord c ((Cont.good_iff c).1 hgc).1]
        cases c; rfl
  · rintro v i (h | ⟨l, c, rfl, hc, hd, h⟩)
    · exact .inl (means_stopParsing h)
    · right
      cases i <;> simp only [dictCont, Option.some.injEq, reduceCtorEq] at hc
      · subst hc
        exact ⟨l, _, rfl, rfl, hd, h⟩
      · rename_i tb
        subst hc
        exact ⟨l, tb.cont.stopParsing, rfl, by cases tb; rfl, by rw [stopParsing_dict]; exact hd, meansIn_stopParsing h⟩
  · rintro v i (h | ⟨l, c, rfl, hc, hd, h⟩)
    · exact means_kind h
    · cases i <;> first | exact ⟨rfl, rfl, rfl⟩ | cases hc
  · rintro v i (h | ⟨l, c, rfl, hc, hd, h⟩)
    · exact means_unwrap h
    · obtain ⟨n0, h0⟩ := meansIn_unwrap hd h
      refine ⟨n0 + 1, fun n hn => ?_⟩
      obtain ⟨m, rfl⟩ : ∃ m, n = m + 1 := ⟨n - 1, by omega⟩
      rcases i with _ | _ | _ | _ | _ | _ | _ | _ | _ | _ | ⟨c, t, n⟩ | tb | _ | _ <;> try (cases hc; done)
      · cases hc
        unfold Item.unwrap
        try dsimp only
        rw [h0 m (by omega)]; rfl
      · cases hc
        unfold Item.unwrap
        try dsimp only
        rw [h0 m (by omega)]; rfl

/-- a container with the entries of the paths shows the dictionary that they denote -/
theorem dot_means : ∀ (d : Nat) {c : Cont} {L : List (List Str × PyVal)} {l : List PyPair}, DotIdx Means c L → Nest L l → (∀ q ∈ L, q.1.length ≤ d) →
    MeansIn l c := by
  intro d
  induction d with
  | zero =>
    intro c L l h hn hd
    have : L = [] := by
      cases L with
      | nil => rfl
      | cons q L =>
        have h1 := hd q (List.mem_cons_self ..)
        exact absurd (List.length_eq_zero_iff.1 (Nat.le_zero.1 h1)) ((nest_apart hn).1 q (List.mem_cons_self ..))
    subst this
    cases hn
    exact MeansIn.nil c
  | succ d ih =>
    intro c L l h hn hd k w hw
    have hU : ∀ q ∈ under k L, q.1.length ≤ d := fun q hq => by
      have := hd _ (mem_under.1 hq); simp at this; omega
    cases dot_key h hn hw with
    | value i hi h1 => exact .one i hi h1
    | table tb l1 p v hi hw hu h1 hn1 =>
      subst hw
      exact .one _ hi (means_dict rfl (h1.keys hn1) (ih h1 hn1 (by rw [← hu]; exact hU)))
    | parts is l1 hi hw h1 hn1 => exact .parts is _ l1 hi hw h1 hn1

theorem DotIdx.means {c : Cont} {L : List (List Str × PyVal)} {l : List PyPair} (h : DotIdx Means c L) (hn : Nest L l) : MeansIn l c :=
  dot_means _ h hn fun q hq => by
    have h1 : ∀ {L : List (List Str × PyVal)} {q : List Str × PyVal}, q ∈ L → q.1.length ≤ (L.map fun q => q.1.length).sum := by
      intro L q hq
      induction L with
      | nil => cases hq
      | cons x L ih =>
        simp only [List.map_cons, List.sum_cons]
        rcases List.mem_cons.1 hq with rfl | hq
        · omega
        · have := ih hq; omega
    exact h1 hq

/-- looking up a key succeeds -/
theorem meansKey_has {c : Cont} {k : Str} {w : PyVal} (h : MeansKey c k w) {n : Nat} (hn : 3 * c.size + 4 ≤ n) : Cont.has n c k = .ok true := by
  obtain ⟨m, rfl⟩ : ∃ m, n = m + 1 := ⟨n - 1, by omega⟩
  cases h with
  | one i hi h =>
    obtain ⟨j, e, h1, _⟩ := item_single.1 hi
    exact has_single h1
  | parts is U l hi hw h hn' =>
    obtain ⟨pc, h1, _⟩ := dot_proxy (dot_has c.size) (n := m) (by omega) h (nest_apart hn') (parts_depth h)
    obtain ⟨h2, h3⟩ := item_many.1 hi
    rw [Cont.has, h2]
    rcases is with _ | ⟨a, _ | ⟨b, r⟩⟩
    · dsimp only
      rw [h1]
      rfl
    · exact absurd rfl h3
    · dsimp only
      rw [h1]
      rfl

end Tomlkit
