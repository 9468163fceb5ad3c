import Verif.Spec.Value
import Verif.Props.Union
/-!
# `Container.value` has what is written (C47)
-/
namespace Tomlkit
open _root_.Spec Tomlkit.Spec

/-! ### keys are there once -/

theorem mem_setKey {k k' : Str} {v : PyVal} {l : List PyPair} :
    k' ∈ (pySetKey k v l).map PyPair.key ↔ k' = k ∨ k' ∈ l.map PyPair.key := by
  induction l with
  | nil => simp [pySetKey, PyPair.key]
  | cons a r ih =>
    unfold pySetKey
    split
    · rename_i h
      have h : a.key = k := by simpa using h
      rw [List.map_cons, List.map_cons, List.mem_cons, List.mem_cons, h]
      exact ⟨fun h => h.elim .inl fun h => .inr (.inr h), fun h => h.elim .inl id⟩
    · rw [List.map_cons, List.map_cons, List.mem_cons, List.mem_cons, ih]
      constructor
      · rintro (h | h | h)
        · exact .inr (.inl h)
        · exact .inl h
        · exact .inr (.inr h)
      · rintro (h | h | h)
        · exact .inr (.inl h)
        · exact .inl h
        · exact .inr (.inr h)

theorem keysOnce_set {k : Str} {v : PyVal} {l : List PyPair} (h : KeysOnce (.dict l)) (hv : KeysOnce v) :
    KeysOnce (.dict (pySetKey k v l)) := by
  induction l with
  | nil => exact ⟨by simp [pySetKey], hv, trivial⟩
  | cons a r ih =>
    obtain ⟨h1, h2, h3⟩ := h
    unfold pySetKey
    split
    · rename_i he
      have he : a.key = k := by simpa using he
      exact ⟨by rw [← he]; exact h1, hv, h3⟩
    · rename_i he
      have he : ¬ a.key = k := by simpa using he
      obtain ⟨h4, h5⟩ := List.nodup_cons.1 h1
      obtain ⟨g1, g2⟩ := ih ⟨h5, h3⟩
      refine ⟨?_, h2, g2⟩
      rw [List.map_cons]
      refine List.nodup_cons.2 ⟨?_, g1⟩
      rw [mem_setKey]
      rintro (h | h)
      · exact he h
      · exact h4 h

mutual
theorem keysOnce_merge : ∀ (d2 d1 : List PyPair), KeysOnce (.dict d1) → KeysOnceIn d2 → KeysOnce (.dict (mergeDicts d1 d2))
  | [], _, h, _ => by rw [mergeDicts]; exact h
  | p :: r, d1, h, h2 => by
    rw [mergeDicts]
    exact keysOnce_merge r _ (keysOnce_pair p d1 h h2.1) h2.2
theorem keysOnce_pair : ∀ (p : PyPair) (d1 : List PyPair), KeysOnce (.dict d1) → KeysOncePair p → KeysOnce (.dict (mergePair d1 p))
  | .mk k v, d1, h, hp => by
    rw [mergePair]
    exact keysOnce_set h (keysOnce_mergeVal v _ (fun w hw => keysOnce_get h.2 hw) hp)
theorem keysOnce_mergeVal : ∀ (v : PyVal) (old : Option PyVal), (∀ w, old = some w → KeysOnce w) → KeysOnce v → KeysOnce (mergeVal old v)
  | .dict l2, old, ho, hv => by
    rcases old with _ | w
    · exact hv
    · rcases w with _ | _ | _ | _ | _ | _ | _ | _ | _ | l1 <;> first | exact hv | exact keysOnce_merge l2 l1 (ho _ rfl) hv.2
  | .none, _, _, h | .bool _, _, _, h | .int _, _, _, h | .float _, _, _, h | .str _, _, _, h | .date _, _, _, h | .time _, _, _, h
  | .datetime _, _, _, h | .list _, _, _, h => h
end

theorem keysOnce_put {d : List PyPair} (k : Str) {v : PyVal} (h : KeysOnce (.dict d)) (hv : KeysOnce v) : KeysOnce (.dict (valuePut d k v)) := by
  unfold valuePut
  split
  · rename_i l1 he
    split
    · exact keysOnce_set h (keysOnce_merge _ _ (keysOnce_get h.2 he) hv.2)
    · exact keysOnce_set h hv
  · exact keysOnce_set h hv

mutual
theorem keysOnce_value : ∀ i : Item, KeysOnce i.pyValue
  | .array gs _ _ => keysOnce_values gs
  | .inline c _ _ => keysOnce_items c
  | .table tb => keysOnce_tbl tb
  | .aot ts _ _ _ => keysOnce_tables ts
  | .ws .. | .comment _ | .integer .. | .float .. | .bool .. | .datetime .. | .date .. | .time .. | .str .. | .null _ => trivial
termination_by structural i => i
theorem keysOnce_values : ∀ gs : List AGroup, KeysOnceAll gs.pyValues
  | [] => trivial
  | g :: r => by
    rw [List.pyValues]
    have h1 := keysOnce_group g
    have h2 := keysOnce_values r
    generalize g.pyValue = l at h1
    induction l with
    | nil => exact h2
    | cons v l ih => exact ⟨h1.1, ih h1.2⟩
termination_by structural gs => gs
theorem keysOnce_group : ∀ g : AGroup, KeysOnceAll g.pyValue
  | .noval .. => trivial
  | .val _ v _ _ => by
    rw [AGroup.pyValue]
    split
    · trivial
    · exact ⟨keysOnce_value v, trivial⟩
termination_by structural g => g
theorem keysOnce_tables : ∀ ts : List Tbl, KeysOnceAll ts.pyTables
  | [] => trivial
  | t :: r => ⟨keysOnce_tbl t, keysOnce_tables r⟩
termination_by structural ts => ts
theorem keysOnce_tbl : ∀ t : Tbl, KeysOnce (.dict t.pyItems)
  | .mk c _ _ _ _ _ => keysOnce_items c
termination_by structural t => t
theorem keysOnce_items : ∀ c : Cont, KeysOnce (.dict c.pyItems)
  | .mk b _ _ _ _ => keysOnce_entries b [] ⟨by simp, trivial⟩
termination_by structural c => c
theorem keysOnce_entries : ∀ (b : List Entry) (d : List PyPair), KeysOnce (.dict d) → KeysOnce (.dict (pyEntries d b))
  | [], _, h => h
  | e :: r, d, h => keysOnce_entries r _ (keysOnce_putEntry e d h)
termination_by structural b => b
theorem keysOnce_putEntry : ∀ (e : Entry) (d : List PyPair), KeysOnce (.dict d) → KeysOnce (.dict (e.pyPut d))
  | .mk none _, _, h => h
  | .mk (some k) v, _, h => keysOnce_put k.key h (keysOnce_value v)
termination_by structural e => e
end
/-! ### one step of the loop -/

/-- the entries before, merged, are what they write -/
def Merged (d : List PyPair) (b : List Entry) : Prop := ∀ k p s, look (.key k :: p) (.dict d) = some s ↔ WrittenB b k p s

theorem look_set (k : Str) (v : PyVal) (d : List PyPair) (k' : Str) (p : List Hop) :
    look (.key k' :: p) (.dict (pySetKey k v d)) = if k = k' then look p v else look (.key k' :: p) (.dict d) := by
  rw [look_key, look_key, pyGet_set]
  split <;> rfl

theorem writtenB_snoc {b : List Entry} {k0 : SKey} {v : Item} {k : Str} {p : List Hop} {s : Shape} :
    WrittenB (b ++ [.mk (some k0) v]) k p s ↔ WrittenB b k p s ∨ (k0.key = k ∧ Written p v s) := by
  unfold WrittenB
  constructor
  · rintro ⟨key, w, h1, h2, h3⟩
    rcases List.mem_append.1 h1 with h | h
    · exact .inl ⟨key, w, h, h2, h3⟩
    · cases List.mem_singleton.1 h
      exact .inr ⟨h2, h3⟩
  · rintro (⟨key, w, h1, h2, h3⟩ | ⟨h2, h3⟩)
    · exact ⟨key, w, List.mem_append.2 (.inl h1), h2, h3⟩
    · exact ⟨k0, v, by simp, h2, h3⟩

/-- merging two dicts that agree only in dicts -/
theorem look_merge {l1 l2 : List PyPair} (h2 : KeysOnce (.dict l2))
    (hap : ∀ p s s', look p (.dict l1) = some s → look p (.dict l2) = some s' → s = .dict ∧ s' = .dict) (p : List Hop) (s : Shape) :
    look p (.dict (mergeDicts l1 l2)) = some s ↔ look p (.dict l1) = some s ∨ look p (.dict l2) = some s := by
  rw [C32_merge_dicts p l1 l2 h2 s]
  constructor
  · rintro (h | ⟨h, _⟩)
    · exact .inr h
    · exact .inl h
  · rintro (h | h)
    · rcases hl : valAt p (.dict l2) with _ | w
      · refine .inr ⟨h, hl, ?_⟩
        intro q r _ w1 w2 e1 e2
        obtain ⟨g1, g2⟩ := hap q (shapeOf w1) (shapeOf w2) (by unfold look; rw [e1]; rfl) (by unfold look; rw [e2]; rfl)
        have hsd : ∀ w : PyVal, shapeOf w = .dict → w.isDict = true := by
          intro w hw
          cases w <;> first | rfl | cases hw
        exact ⟨hsd _ g1, hsd _ g2⟩
      · have hl' : look p (.dict l2) = some (shapeOf w) := by unfold look; rw [hl]; rfl
        obtain ⟨g1, g2⟩ := hap p _ _ h hl'
        exact .inl (by rw [hl', g2, g1])
    · exact .inl h

theorem sound_put {d : List PyPair} {b : List Entry} (hs : Merged d b) {k0 : SKey} {v : Item} (hk : KeysOnce v.pyValue)
    (hv : ∀ p s, look p v.pyValue = some s ↔ Written p v s)
    (hap : ∀ p s s', WrittenB b k0.key p s → Written p v s' → s = .dict ∧ s' = .dict) :
    Merged (valuePut d k0.key v.pyValue) (b ++ [.mk (some k0) v]) := by
  intro k p s
  rw [writtenB_snoc]
  have hshape : ∀ w : PyVal, shapeOf w = .dict → ∃ l, w = .dict l := by
    intro w hw
    cases w <;> first | exact ⟨_, rfl⟩ | cases hw
  rcases hg : pyGet k0.key d with _ | old
  · have e : valuePut d k0.key v.pyValue = pySetKey k0.key v.pyValue d := by unfold valuePut; rw [hg]
    rw [e, look_set]
    by_cases h : k0.key = k
    · rw [if_pos h, hv, ← hs, ← h, look_key, hg]
      simp
    · rw [if_neg h, hs]
      simp [h]
  · have h1 : WrittenB b k0.key [] (shapeOf old) := (hs _ _ _).1 (by rw [look_key, hg]; rfl)
    obtain ⟨g1, g2⟩ := hap [] (shapeOf old) (shapeOf v.pyValue) h1 ((hv _ _).1 rfl)
    obtain ⟨l1, rfl⟩ := hshape _ g1
    obtain ⟨l2, hl2⟩ := hshape _ g2
    rw [hl2] at hv hk
    have e : valuePut d k0.key v.pyValue = pySetKey k0.key (.dict (mergeDicts l1 l2)) d := by unfold valuePut; rw [hg, hl2]
    have hold : ∀ p s, look p (.dict l1) = some s ↔ WrittenB b k0.key p s := by
      intro p s
      rw [← hs, look_key, hg]; rfl
    rw [e, look_set]
    by_cases h : k0.key = k
    · rw [if_pos h, look_merge hk (fun p s s' a1 a2 => hap p s s' ((hold _ _).1 a1) ((hv _ _).1 a2)), hold, hv, h]
      simp
    · rw [if_neg h, hs]
      simp [h]

theorem sound_fold {c : Cont} (hc : Separate c) : ∀ (r b : List Entry) (d : List PyPair), c.body = b ++ r → Merged d b →
    (∀ e ∈ r, ∀ k, e.key = some k → ∀ p s, look p e.v.pyValue = some s ↔ Written p e.v s) → Merged (pyEntries d r) c.body
  | [], b, d, he, hs, _ => by rw [he, List.append_nil]; exact hs
  | .mk none v :: r, b, d, he, hs, hv => by
    refine sound_fold hc r (b ++ [.mk none v]) d (by rw [he]; simp) ?_ fun e h => hv e (List.mem_cons_of_mem _ h)
    intro k p s
    rw [hs]
    unfold WrittenB
    constructor
    · rintro ⟨key, w, h1, h2⟩; exact ⟨key, w, List.mem_append.2 (.inl h1), h2⟩
    · rintro ⟨key, w, h1, h2⟩
      rcases List.mem_append.1 h1 with h | h
      · exact ⟨key, w, h, h2⟩
      · cases List.mem_singleton.1 h
  | .mk (some k0) v :: r, b, d, he, hs, hv => by
    refine sound_fold hc r (b ++ [.mk (some k0) v]) _ (by rw [he]; simp) ?_ fun e h => hv e (List.mem_cons_of_mem _ h)
    refine sound_put hs (keysOnce_value v) (hv _ (List.mem_cons_self ..) k0 rfl) ?_
    rintro p s s' ⟨key, w, h1, h2, h3⟩ h4
    obtain ⟨i, hi⟩ := List.mem_iff_getElem?.1 h1
    have hlt : i < b.length := by
      rcases Nat.lt_or_ge i b.length with h | h
      · exact h
      · rw [List.getElem?_eq_none h] at hi; cases hi
    refine hc.apart i b.length k0.key w v ⟨key, ?_, h2⟩ ⟨k0, ?_, rfl⟩ (by omega) p s s' h3 h4
    · rw [he, List.getElem?_append_left hlt]; exact hi
    · rw [he, List.getElem?_append_right (Nat.le_refl _)]; simp

/-! ### the items -/

theorem written_scalar {i : Item} {w : PyVal} (h1 : shapeOf w = .scalar w) (h2 : itemShape i = .scalar w) (h3 : entriesOf i = [])
    (h4 : elementsOf i = []) (p : List Hop) (s : Shape) : look p w = some s ↔ Written p i s := by
  rcases p with _ | ⟨k | j, p⟩
  · rw [look_nil, h1]; unfold Written; rw [h2]; simp
  · rw [look_scalar h1]; unfold Written; rw [h3]; simp
  · rw [look_scalar h1]; unfold Written; rw [h4]; simp

theorem written_dict {i : Item} {c : Cont} (h : Merged c.pyItems c.body) (h1 : itemShape i = .dict) (h2 : entriesOf i = c.body)
    (h3 : elementsOf i = []) (p : List Hop) (s : Shape) : look p (.dict c.pyItems) = some s ↔ Written p i s := by
  rcases p with _ | ⟨k | j, p⟩
  · rw [look_nil]; unfold Written; rw [h1]; simp [shapeOf]
  · rw [h]; unfold Written; rw [h2]; exact Iff.rfl
  · have : look (.idx j :: p) (.dict c.pyItems) = none := rfl
    rw [this]; unfold Written; rw [h3]; simp

/-- the values of a list of items are what they write -/
def MergedAll (l : List PyVal) (is : List Item) : Prop :=
  l.length = is.length ∧ ∀ (j : Nat) p s, (l[j]?.bind (look p)) = some s ↔ ∃ i, is[j]? = some i ∧ Written p i s

theorem MergedAll.nil : MergedAll [] [] := ⟨rfl, fun j p s => by simp⟩
theorem MergedAll.cons {v : PyVal} {i : Item} {l : List PyVal} {is : List Item} (h : ∀ p s, look p v = some s ↔ Written p i s)
    (hr : MergedAll l is) : MergedAll (v :: l) (i :: is) := by
  refine ⟨by simp [hr.1], fun j p s => ?_⟩
  rcases j with _ | j
  · simp only [List.getElem?_cons_zero, Option.bind_some, Option.some.injEq, exists_eq_left']
    exact h p s
  · simp only [List.getElem?_cons_succ]
    exact hr.2 j p s

theorem written_list {i : Item} {l : List PyVal} {is : List Item} (h : MergedAll l is) (h1 : itemShape i = .list is.length)
    (h2 : entriesOf i = []) (h3 : elementsOf i = is) (p : List Hop) (s : Shape) : look p (.list l) = some s ↔ Written p i s := by
  rcases p with _ | ⟨k | j, p⟩
  · rw [look_nil]; unfold Written; rw [h1]; simp [shapeOf, h.1]
  · have : look (.key k :: p) (.list l) = none := rfl
    rw [this]; unfold Written; rw [h2]; simp
  · rw [look_idx, h.2]
    constructor
    · rintro ⟨x, hx⟩; exact ⟨x, by rw [h3]; exact hx.1, hx.2⟩
    · rintro ⟨x, hx⟩; exact ⟨x, by rw [← h3]; exact hx.1, hx.2⟩

/-- the elements of the groups of an array -/
def shownItems (gs : List AGroup) : List Item := gs.flatMap fun g => match g with
  | .noval .. => []
  | .val _ v _ _ => if v.isWhitespace || v.isComment || v.isNull then [] else [v]

theorem shown_eq (gs : List AGroup) (t : Trivia) (ml : Bool) : elementsOf (.array gs t ml) = shownItems gs := elementsOf_unwrap gs t ml
theorem shown_cons (g : AGroup) (r : List AGroup) : shownItems (g :: r) = shownItems [g] ++ shownItems r := by simp [shownItems]
theorem shown_val (i : Option Str) (v : Item) (c : Option Str) (m : Option Trivia) :
    shownItems [.val i v c m] = if v.isWhitespace || v.isComment || v.isNull then [] else [v] := by
  show (_ ++ [] : List Item) = _
  rw [List.append_nil]

mutual
theorem value_item : ∀ i : Item, EveryItem Separate i → i.isWhitespace = false → ∀ p s, look p i.pyValue = some s ↔ Written p i s
  | .array gs t ml, h, _ => written_list (value_groups gs h) (by rw [← shown_eq gs t ml]; rfl) rfl (shown_eq gs t ml)
  | .inline c t new, h, _ => written_dict (c := c) (value_cont c h) rfl rfl rfl
  | .table tb, h, _ => value_tbl tb h
  | .aot ts t nm pp, h, _ => written_list (is := ts.map Item.table) (value_tables ts h) (by simp [itemShape]) rfl rfl
  | .ws .., _, hw => by cases hw
  | .comment _, _, _ | .integer .., _, _ | .float .., _, _ | .bool .., _, _ | .datetime .., _, _ | .date .., _, _ | .time .., _, _
  | .str .., _, _ | .null _, _, _ => written_scalar rfl rfl rfl rfl
termination_by structural i => i
theorem value_groups : ∀ gs : List AGroup, EveryGroups Separate gs → MergedAll gs.pyValues (shownItems gs)
  | [], _ => .nil
  | g :: r, h => by
    have h2 := value_groups r h.2
    rcases value_group g h.1 with ⟨h3, h4⟩ | ⟨v, h3, h4, h5⟩
    · have : shownItems (g :: r) = shownItems r := by rw [shown_cons, h4]; rfl
      rw [List.pyValues, h3, this]; exact h2
    · have : shownItems (g :: r) = v :: shownItems r := by rw [shown_cons, h4]; rfl
      rw [List.pyValues, h3, this]; exact .cons h5 h2
termination_by structural gs => gs
theorem value_group : ∀ g : AGroup, EveryGroup Separate g → (g.pyValue = [] ∧ shownItems [g] = []) ∨
    ∃ v, g.pyValue = [v.pyValue] ∧ shownItems [g] = [v] ∧ ∀ p s, look p v.pyValue = some s ↔ Written p v s
  | .noval .., _ => .inl ⟨rfl, rfl⟩
  | .val i v c m, h => by
    have hv := value_item v h
    by_cases hc : (v.isWhitespace || v.isComment || v.isNull) = true
    · exact .inl ⟨by rw [AGroup.pyValue, if_pos hc], by rw [shown_val, if_pos hc]⟩
    · refine .inr ⟨v, by rw [AGroup.pyValue, if_neg hc], by rw [shown_val, if_neg hc], hv ?_⟩
      simp at hc
      exact hc.1.1
termination_by structural g => g
theorem value_tables : ∀ ts : List Tbl, EveryTables Separate ts → MergedAll ts.pyTables (ts.map Item.table)
  | [], _ => .nil
  | t :: r, h => .cons (value_tbl t h.1) (value_tables r h.2)
termination_by structural ts => ts
theorem value_tbl : ∀ t : Tbl, EveryTbl Separate t → ∀ p s, look p (.dict t.pyItems) = some s ↔ Written p (.table t) s
  | .mk c tr ia sf nm dn, h => written_dict (c := c) (value_cont c h) rfl rfl rfl
termination_by structural t => t
theorem value_cont : ∀ c : Cont, Every Separate c → Merged c.pyItems c.body
  | .mk b m dd pa tk, h => by
    have h0 := h.1
    refine sound_fold (c := .mk b m dd pa tk) h0 b [] [] rfl ?_ ?_
    · intro k p s
      rw [look_key]
      simp [pyGet, WrittenB]
    · intro e he k hk
      refine value_entries b h.2 e he ?_
      obtain ⟨i, hi⟩ := List.mem_iff_getElem?.1 he
      refine h0.data i k.key e.v ⟨k, ?_, rfl⟩
      show b[i]? = _
      rw [hi]
      rcases e with ⟨key, v⟩
      exact congrArg (fun x => some (Entry.mk x v)) hk
termination_by structural c => c
theorem value_entries : ∀ b : List Entry, EveryEntries Separate b → ∀ e ∈ b, e.v.isWhitespace = false → ∀ p s,
    look p e.v.pyValue = some s ↔ Written p e.v s
  | [], _ => fun e he => by cases he
  | e0 :: r, h => fun e he hw => by
    have h1 := value_entry e0 h.1
    have h2 := value_entries r h.2
    rcases List.mem_cons.1 he with rfl | he
    · exact h1 hw
    · exact h2 e he hw
termination_by structural b => b
theorem value_entry : ∀ e : Entry, EveryEntry Separate e → e.v.isWhitespace = false → ∀ p s, look p e.v.pyValue = some s ↔ Written p e.v s
  | .mk k v, h => value_item v h
termination_by structural e => e
end

end Tomlkit
