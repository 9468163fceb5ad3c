import Verif.Proofs.LineEdit
import Verif.Proofs.LockDoc
import Verif.Proofs.UnwrapMore
/-!
# Containers that differ in the values of their lines only

`Near Q` relates two containers that are alike except for the values of lines, which are related by `Q`, and for the order in which the
positions of keys are recorded.
-/
namespace Tomlkit
open _root_.Spec Tomlkit.Spec

mutual
/-- alike but for the values of lines -/
def Item.Near (Q : Item → Item → Prop) : Item → Item → Prop
  | .ws s f, j => j = .ws s f
  | .comment t, j => j = .comment t
  | .null t, j => j = .null t
  | .table tb, j => ∃ tb', j = .table tb' ∧ tb.Near Q tb'
  | .aot ts t n p, j => ∃ ts', j = .aot ts' t n p ∧ nearTables Q ts ts'
  | .integer v t r, j => j.isSimple = true ∧ Q (.integer v t r) j
  | .float v t r, j => j.isSimple = true ∧ Q (.float v t r) j
  | .bool v t, j => j.isSimple = true ∧ Q (.bool v t) j
  | .datetime v t r, j => j.isSimple = true ∧ Q (.datetime v t r) j
  | .date v t r, j => j.isSimple = true ∧ Q (.date v t r) j
  | .time v t r, j => j.isSimple = true ∧ Q (.time v t r) j
  | .str a v o t, j => j.isSimple = true ∧ Q (.str a v o t) j
  | .array g t m, j => j.isSimple = true ∧ Q (.array g t m) j
  | .inline c t n, j => j.isSimple = true ∧ Q (.inline c t n) j
termination_by structural i => i
@[inherit_doc Item.Near]
def Tbl.Near (Q : Item → Item → Prop) : Tbl → Tbl → Prop
  | .mk c t a s n d, t' => ∃ c', t' = .mk c' t a s n d ∧ c.Near Q c' ∧ s ≠ none
termination_by structural t => t
@[inherit_doc Item.Near]
def Cont.Near (Q : Item → Item → Prop) : Cont → Cont → Prop
  | .mk b m d p tk, c' => ∃ b' m', c' = .mk b' m' d p tk ∧ p = false ∧ nearEntries Q b b' ∧ ∀ k, mapGet k m' = mapGet k m
termination_by structural c => c
@[inherit_doc Item.Near]
def nearEntries (Q : Item → Item → Prop) : List Entry → List Entry → Prop
  | [], l => l = []
  | e :: r, l => ∃ e' r', l = e' :: r' ∧ e.Near Q e' ∧ nearEntries Q r r'
termination_by structural e => e
@[inherit_doc Item.Near]
def Entry.Near (Q : Item → Item → Prop) : Entry → Entry → Prop
  | .mk k v, e' => ∃ v', e' = .mk k v' ∧ v.Near Q v' ∧ ∀ tb, v = .table tb → tb.superFlag = some true → tb.cont.body ≠ []
termination_by structural e => e
@[inherit_doc Item.Near]
def nearTables (Q : Item → Item → Prop) : List Tbl → List Tbl → Prop
  | [], l => l = []
  | t :: r, l => ∃ t' r', l = t' :: r' ∧ t.Near Q t' ∧ nearTables Q r r'
termination_by structural t => t
end

theorem near_simple {Q : Item → Item → Prop} {v w : Item} (h : v.isSimple = true) : v.Near Q w ↔ w.isSimple = true ∧ Q v w := by
  cases v <;> first | rfl | cases h

theorem Item.Near.simple {Q : Item → Item → Prop} {v w : Item} (h : v.Near Q w) : w.isSimple = v.isSimple := by
  rcases v with _ | _ | _ | _ | _ | _ | _ | _ | _ | _ | _ | _ | _ | _
  all_goals first
    | exact h.1
    | (have h : w = _ := h; subst h; rfl)
    | (obtain ⟨_, rfl, _⟩ := h; rfl)

theorem Item.Near.kinds {Q : Item → Item → Prop} {v w : Item} (h : v.Near Q w) : w.isTable = v.isTable ∧ w.isAoT = v.isAoT ∧
    w.isTableLike = v.isTableLike ∧ w.isPlain = v.isPlain ∧ w.isWhitespace = v.isWhitespace ∧ w.isNull = v.isNull ∧ w.name? = v.name? := by
  have hs : ∀ {v : Item}, v.isSimple = true → w.isSimple = true → w.isTable = v.isTable ∧ w.isAoT = v.isAoT ∧
    w.isTableLike = v.isTableLike ∧ w.isPlain = v.isPlain ∧ w.isWhitespace = v.isWhitespace ∧ w.isNull = v.isNull ∧ w.name? = v.name? := by
    intro v h1 h2
    cases v <;> first | (cases h1; done) | (cases w <;> first | (cases h2; done) | exact ⟨rfl, rfl, rfl, rfl, rfl, rfl, rfl⟩)
  rcases v with _ | _ | _ | _ | _ | _ | _ | _ | _ | _ | _ | ⟨c, t, a, s, n, d⟩ | _ | _
  all_goals first
    | exact hs rfl h.1
    | (have h : w = _ := h; subst h; exact ⟨rfl, rfl, rfl, rfl, rfl, rfl, rfl⟩)
    | (obtain ⟨_, rfl, _, rfl, _⟩ := h; exact ⟨rfl, rfl, rfl, rfl, rfl, rfl, rfl⟩)
    | (obtain ⟨_, rfl, _⟩ := h; exact ⟨rfl, rfl, rfl, rfl, rfl, rfl, rfl⟩)

theorem nearEntries_iff {Q : Item → Item → Prop} {b b' : List Entry} : nearEntries Q b b' ↔ ListRel (Entry.Near Q) b b' := by
  induction b generalizing b' with
  | nil =>
    constructor
    · intro h; cases h; exact .nil
    · intro h; cases h; rfl
  | cons e r ih =>
    constructor
    · rintro ⟨e', r', rfl, h1, h2⟩; exact .cons h1 (ih.1 h2)
    · intro h
      cases h with
      | cons h1 h2 => exact ⟨_, _, rfl, h1, ih.2 h2⟩

theorem nearTables_iff {Q : Item → Item → Prop} {b b' : List Tbl} : nearTables Q b b' ↔ ListRel (Tbl.Near Q) b b' := by
  induction b generalizing b' with
  | nil =>
    constructor
    · intro h; cases h; exact .nil
    · intro h; cases h; rfl
  | cons e r ih =>
    constructor
    · rintro ⟨e', r', rfl, h1, h2⟩; exact .cons h1 (ih.1 h2)
    · intro h
      cases h with
      | cons h1 h2 => exact ⟨_, _, rfl, h1, ih.2 h2⟩

theorem _root_.Tomlkit.Spec.ListRel.at {α β : Type} {R : α → β → Prop} {l : List α} {m : List β} (h : ListRel R l m) (i : Nat) :
    (l[i]? = none ∧ m[i]? = none) ∨ ∃ a b, l[i]? = some a ∧ m[i]? = some b ∧ R a b := by
  induction h generalizing i with
  | nil => exact .inl ⟨rfl, rfl⟩
  | cons h _ ih =>
    rcases i with _ | i
    · exact .inr ⟨_, _, rfl, rfl, h⟩
    · exact ih i

theorem _root_.Tomlkit.Spec.ListRel.put {α β : Type} {R : α → β → Prop} {l : List α} {m : List β} (h : ListRel R l m) {i : Nat} {a : α} {b : β}
    (ha : l[i]? = some a) (hb : R a b) : ListRel R l (m.set i b) := by
  induction h generalizing i with
  | nil => cases ha
  | cons h t ih =>
    rcases i with _ | i
    · cases ha; exact .cons hb t
    · exact .cons h (ih ha)

theorem _root_.Tomlkit.Spec.ListRel.len {α β : Type} {R : α → β → Prop} {l : List α} {m : List β} (h : ListRel R l m) : m.length = l.length := by
  induction h with
  | nil => rfl
  | cons h t ih => simp [ih]

theorem _root_.Tomlkit.Spec.ListRel.imp {α β : Type} {R S : α → β → Prop} {l : List α} {m : List β} (h : ListRel R l m) (hi : ∀ a b, R a b → S a b) :
    ListRel S l m := by
  induction h with
  | nil => exact .nil
  | cons h t ih => exact .cons (hi _ _ h) ih

/-! ### related to itself -/

mutual
theorem Item.near_self {Q : Item → Item → Prop} (hQ : ∀ v, Q v v) : (v : Item) → v.Clean → v.stopParsing.Near Q v.stopParsing
  | .ws .., _ => rfl | .comment _, _ => rfl | .null _, _ => rfl
  | .table tb, h => ⟨_, rfl, Tbl.near_self hQ tb h⟩
  | .aot ts _ _ _, h => ⟨_, rfl, tables_near_self hQ ts h.2.2⟩
  | .integer .., _ => ⟨rfl, hQ _⟩ | .float .., _ => ⟨rfl, hQ _⟩ | .bool .., _ => ⟨rfl, hQ _⟩ | .datetime .., _ => ⟨rfl, hQ _⟩
  | .date .., _ => ⟨rfl, hQ _⟩ | .time .., _ => ⟨rfl, hQ _⟩ | .str .., _ => ⟨rfl, hQ _⟩ | .array .., _ => ⟨rfl, hQ _⟩ | .inline .., _ => ⟨rfl, hQ _⟩
theorem Tbl.near_self {Q : Item → Item → Prop} (hQ : ∀ v, Q v v) : (t : Tbl) → t.Clean → t.stopParsing.Near Q t.stopParsing
  | .mk c t a s n d, h => ⟨_, rfl, Cont.near_self hQ c h.1, by rcases h.2 with h | h <;> simp [h]⟩
theorem Cont.near_self {Q : Item → Item → Prop} (hQ : ∀ v, Q v v) : (c : Cont) → c.Clean → c.stopParsing.Near Q c.stopParsing
  | .mk b m d p tk, h => ⟨_, _, rfl, rfl, entries_near_self hQ b h.2, fun _ => rfl⟩
theorem entries_near_self {Q : Item → Item → Prop} (hQ : ∀ v, Q v v) : (b : List Entry) → cleanEntries b → nearEntries Q b.stopParsingEntries b.stopParsingEntries
  | [], _ => rfl
  | e :: r, h => ⟨_, _, rfl, Entry.near_self hQ e h.1, entries_near_self hQ r h.2⟩
theorem Entry.near_self {Q : Item → Item → Prop} (hQ : ∀ v, Q v v) : (e : Entry) → e.Clean → e.stopParsing.Near Q e.stopParsing
  | .mk k v, h => by
    refine ⟨_, rfl, Item.near_self hQ v h.1, ?_⟩
    intro tb htb hs
    cases v with
    | table t0 =>
      have : t0.stopParsing = tb := by injection htb
      subst this
      rcases t0 with ⟨⟨b, m, d, p, tk⟩, t, a, s, n, dn⟩
      have := (h.2.2 _ rfl hs).2.2.1
      intro hb
      apply this
      have hb : b.stopParsingEntries = [] := hb
      rw [stopParsing_at] at hb
      simpa using hb
    | _ => cases htb
theorem tables_near_self {Q : Item → Item → Prop} (hQ : ∀ v, Q v v) : (b : List Tbl) → cleanTables b → nearTables Q b.stopParsingTables b.stopParsingTables
  | [], _ => rfl
  | t :: r, h => ⟨_, _, rfl, Tbl.near_self hQ t h.1, tables_near_self hQ r h.2⟩
end

/-! ### the values of the lines -/

mutual
theorem Item.Near.leaves {Q : Item → Item → Prop} : (v : Item) → (w : Item) → v.Near Q w → ListRel Q v.leaves w.leaves
  | .ws .., _, h => by cases h; exact .nil
  | .comment _, _, h => by cases h; exact .nil
  | .null _, _, h => by cases h; exact .nil
  | .table tb, _, h => by obtain ⟨tb', rfl, h⟩ := h; exact Tbl.Near.leaves tb tb' h
  | .aot ts _ _ _, _, h => by obtain ⟨ts', rfl, h⟩ := h; exact tables_near_leaves ts ts' h
  | .integer .., _, h => by rw [leaves_simple h.1]; exact .cons h.2 .nil
  | .float .., _, h => by rw [leaves_simple h.1]; exact .cons h.2 .nil
  | .bool .., _, h => by rw [leaves_simple h.1]; exact .cons h.2 .nil
  | .datetime .., _, h => by rw [leaves_simple h.1]; exact .cons h.2 .nil
  | .date .., _, h => by rw [leaves_simple h.1]; exact .cons h.2 .nil
  | .time .., _, h => by rw [leaves_simple h.1]; exact .cons h.2 .nil
  | .str .., _, h => by rw [leaves_simple h.1]; exact .cons h.2 .nil
  | .array .., _, h => by rw [leaves_simple h.1]; exact .cons h.2 .nil
  | .inline .., _, h => by rw [leaves_simple h.1]; exact .cons h.2 .nil
theorem Tbl.Near.leaves {Q : Item → Item → Prop} : (v : Tbl) → (w : Tbl) → v.Near Q w → ListRel Q v.leaves w.leaves
  | .mk c t a s n d, _, h => by obtain ⟨c', rfl, h, _⟩ := h; exact Cont.Near.leaves c c' h
theorem Cont.Near.leaves {Q : Item → Item → Prop} : (v : Cont) → (w : Cont) → v.Near Q w → ListRel Q v.leaves w.leaves
  | .mk b m d p tk, _, h => by obtain ⟨b', m', rfl, _, h, _⟩ := h; exact entries_near_leaves b b' h
theorem entries_near_leaves {Q : Item → Item → Prop} : (b : List Entry) → (b' : List Entry) → nearEntries Q b b' → ListRel Q b.leavesEntries b'.leavesEntries
  | [], _, h => by cases h; exact .nil
  | e :: r, _, h => by obtain ⟨e', r', rfl, h1, h2⟩ := h; exact (Entry.Near.leaves e e' h1).append (entries_near_leaves r r' h2)
theorem Entry.Near.leaves {Q : Item → Item → Prop} : (e : Entry) → (e' : Entry) → e.Near Q e' → ListRel Q e.leaves e'.leaves
  | .mk k v, _, h => by obtain ⟨v', rfl, h, _⟩ := h; exact Item.Near.leaves v v' h
theorem tables_near_leaves {Q : Item → Item → Prop} : (b : List Tbl) → (b' : List Tbl) → nearTables Q b b' → ListRel Q b.leavesTables b'.leavesTables
  | [], _, h => by cases h; exact .nil
  | e :: r, _, h => by obtain ⟨e', r', rfl, h1, h2⟩ := h; exact (Tbl.Near.leaves e e' h1).append (tables_near_leaves r r' h2)
end

mutual
theorem Item.stop_leaves : (v : Item) → v.stopParsing.leaves = v.leaves
  | .table tb => Tbl.stop_leaves tb
  | .aot ts _ _ _ => tables_stop_leaves ts
  | .ws .. => rfl | .comment _ => rfl | .null _ => rfl | .integer .. => rfl | .float .. => rfl | .bool .. => rfl | .datetime .. => rfl
  | .date .. => rfl | .time .. => rfl | .str .. => rfl | .array .. => rfl | .inline .. => rfl
theorem Tbl.stop_leaves : (v : Tbl) → v.stopParsing.leaves = v.leaves
  | .mk c t a s n d => Cont.stop_leaves c
theorem Cont.stop_leaves : (v : Cont) → v.stopParsing.leaves = v.leaves
  | .mk b m d p tk => entries_stop_leaves b
theorem entries_stop_leaves : (b : List Entry) → b.stopParsingEntries.leavesEntries = b.leavesEntries
  | [] => rfl
  | e :: r => by
    show e.stopParsing.leaves ++ r.stopParsingEntries.leavesEntries = e.leaves ++ r.leavesEntries
    rw [Entry.stop_leaves e, entries_stop_leaves r]
theorem Entry.stop_leaves : (v : Entry) → v.stopParsing.leaves = v.leaves
  | .mk k v => Item.stop_leaves v
theorem tables_stop_leaves : (b : List Tbl) → b.stopParsingTables.leavesTables = b.leavesTables
  | [] => rfl
  | e :: r => by
    show e.stopParsing.leaves ++ r.stopParsingTables.leavesTables = e.leaves ++ r.leavesTables
    rw [Tbl.stop_leaves e, tables_stop_leaves r]
end

mutual
theorem Item.stop_skel : (v : Item) → v.stopParsing.skel = v.skel.stopParsing
  | .table tb => congrArg Item.table (Tbl.stop_skel tb)
  | .aot ts t n p => congrArg (Item.aot · t n p) (tables_stop_skel ts)
  | .ws .. => rfl | .comment _ => rfl | .null _ => rfl | .integer .. => rfl | .float .. => rfl | .bool .. => rfl | .datetime .. => rfl
  | .date .. => rfl | .time .. => rfl | .str .. => rfl | .array .. => rfl | .inline .. => rfl
theorem Tbl.stop_skel : (v : Tbl) → v.stopParsing.skel = v.skel.stopParsing
  | .mk c t a s n d => congrArg (Tbl.mk · t a s n d) (Cont.stop_skel c)
theorem Cont.stop_skel : (v : Cont) → v.stopParsing.skel = v.skel.stopParsing
  | .mk b m d p tk => congrArg (Cont.mk · m d false tk) (entries_stop_skel b)
theorem entries_stop_skel : (b : List Entry) → b.stopParsingEntries.skelEntries = b.skelEntries.stopParsingEntries
  | [] => rfl
  | e :: r => by
    show e.stopParsing.skel :: r.stopParsingEntries.skelEntries = e.skel.stopParsing :: r.skelEntries.stopParsingEntries
    rw [Entry.stop_skel e, entries_stop_skel r]
theorem Entry.stop_skel : (v : Entry) → v.stopParsing.skel = v.skel.stopParsing
  | .mk k v => congrArg (Entry.mk k ·) (Item.stop_skel v)
theorem tables_stop_skel : (b : List Tbl) → b.stopParsingTables.skelTables = b.skelTables.stopParsingTables
  | [] => rfl
  | e :: r => by
    show e.stopParsing.skel :: r.stopParsingTables.skelTables = e.skel.stopParsing :: r.skelTables.stopParsingTables
    rw [Tbl.stop_skel e, tables_stop_skel r]
end

/-! ### the same skeleton and related values -/

theorem simple_of_skel {u : Item} (h : u.skel = .integer 0 {} []) : u.isSimple = true := by
  cases u <;> first | rfl | cases h

/-- one value in front -/
theorem leaf_near {Q : Item → Item → Prop} {w u : Item} {r2 r3 : List Item} (hw : w.isSimple = true) (hs : u.skel = .integer 0 {} [])
    (h : ListRel Q (w.leaves ++ r2) (u.leaves ++ r3)) : w.Near Q u ∧ ListRel Q r2 r3 := by
  have hu := simple_of_skel hs
  rw [leaves_simple hw, leaves_simple hu] at h
  cases h with
  | cons h t => exact ⟨(near_simple hw).2 ⟨hu, h⟩, t⟩

mutual
theorem Item.near_of {A Q : Item → Item → Prop} : (v w u : Item) → v.Near A w → u.skel = v.skel → ∀ {r2 r3 : List Item},
    ListRel Q (w.leaves ++ r2) (u.leaves ++ r3) → w.Near Q u ∧ ListRel Q r2 r3
  | .ws .., w, u, h, hs, _, _, hl => by
    cases h
    cases u <;> first | cases hs | skip
    exact ⟨rfl, hl⟩
  | .comment _, w, u, h, hs, _, _, hl => by
    cases h
    cases u <;> first | cases hs | skip
    exact ⟨rfl, hl⟩
  | .null _, w, u, h, hs, _, _, hl => by
    cases h
    cases u <;> first | cases hs | skip
    exact ⟨rfl, hl⟩
  | .table tb, w, u, h, hs, _, _, hl => by
    obtain ⟨tb', rfl, h⟩ := h
    rcases u with _ | _ | _ | _ | _ | _ | _ | _ | _ | _ | _ | tu | ⟨ts, t, nm, p⟩ | _ <;> try (cases hs; done)
    obtain ⟨h1, h2⟩ := Tbl.near_of tb tb' tu h (by injection hs) hl
    exact ⟨⟨_, rfl, h1⟩, h2⟩
  | .aot ts _ _ _, w, u, h, hs, _, _, hl => by
    obtain ⟨ts', rfl, h⟩ := h
    rcases u with _ | _ | _ | _ | _ | _ | _ | _ | _ | _ | _ | tu | ⟨tu, t, nm, p⟩ | _ <;> try (cases hs; done)
    have hs : Item.aot tu.skelTables t nm p = .aot ts.skelTables _ _ _ := hs
    obtain ⟨g1, rfl, rfl, rfl⟩ := Item.aot.inj hs
    obtain ⟨h1, h2⟩ := tables_near_of ts ts' tu h g1 hl
    exact ⟨⟨_, rfl, h1⟩, h2⟩
  | .integer .., w, u, h, hs, _, _, hl => leaf_near h.1 hs hl
  | .float .., w, u, h, hs, _, _, hl => leaf_near h.1 hs hl
  | .bool .., w, u, h, hs, _, _, hl => leaf_near h.1 hs hl
  | .datetime .., w, u, h, hs, _, _, hl => leaf_near h.1 hs hl
  | .date .., w, u, h, hs, _, _, hl => leaf_near h.1 hs hl
  | .time .., w, u, h, hs, _, _, hl => leaf_near h.1 hs hl
  | .str .., w, u, h, hs, _, _, hl => leaf_near h.1 hs hl
  | .array .., w, u, h, hs, _, _, hl => leaf_near h.1 hs hl
  | .inline .., w, u, h, hs, _, _, hl => leaf_near h.1 hs hl
theorem Tbl.near_of {A Q : Item → Item → Prop} : (v w u : Tbl) → v.Near A w → u.skel = v.skel → ∀ {r2 r3 : List Item},
    ListRel Q (w.leaves ++ r2) (u.leaves ++ r3) → w.Near Q u ∧ ListRel Q r2 r3
  | .mk c t a s n d, _, .mk cu tu au su nu du, h, hs, _, _, hl => by
    obtain ⟨c', rfl, h, hn⟩ := h
    obtain ⟨g1, rfl, rfl, rfl, rfl, rfl⟩ := Tbl.mk.inj hs
    obtain ⟨h1, h2⟩ := Cont.near_of c c' cu h g1 hl
    exact ⟨⟨_, rfl, h1, hn⟩, h2⟩
theorem Cont.near_of {A Q : Item → Item → Prop} : (v w u : Cont) → v.Near A w → u.skel = v.skel → ∀ {r2 r3 : List Item},
    ListRel Q (w.leaves ++ r2) (u.leaves ++ r3) → w.Near Q u ∧ ListRel Q r2 r3
  | .mk b m d p tk, _, .mk bu mu du pu tku, h, hs, _, _, hl => by
    obtain ⟨b', m', rfl, hp, h, hm⟩ := h
    obtain ⟨g1, rfl, rfl, rfl, rfl⟩ := Cont.mk.inj hs
    obtain ⟨h1, h2⟩ := entries_near_of b b' bu h g1 hl
    exact ⟨⟨_, _, rfl, hp, h1, fun k => (hm k).symm⟩, h2⟩
theorem entries_near_of {A Q : Item → Item → Prop} : (v w u : List Entry) → nearEntries A v w → u.skelEntries = v.skelEntries → ∀ {r2 r3 : List Item},
    ListRel Q (w.leavesEntries ++ r2) (u.leavesEntries ++ r3) → nearEntries Q w u ∧ ListRel Q r2 r3
  | [], _, [], h, hs, _, _, hl => by cases h; exact ⟨rfl, hl⟩
  | [], _, _ :: _, h, hs, _, _, hl => by cases hs
  | _ :: _, _, [], h, hs, _, _, hl => by cases hs
  | e :: r, _, eu :: ru, h, hs, _, _, hl => by
    obtain ⟨e', r', rfl, h1, h2⟩ := h
    obtain ⟨g1, g2⟩ := List.cons.inj hs
    have hl : ListRel Q ((e'.leaves ++ r'.leavesEntries) ++ _) ((eu.leaves ++ ru.leavesEntries) ++ _) := hl
    rw [List.append_assoc, List.append_assoc] at hl
    obtain ⟨k1, k2⟩ := Entry.near_of e e' eu h1 g1 hl
    obtain ⟨k3, k4⟩ := entries_near_of r r' ru h2 g2 k2
    exact ⟨⟨_, _, rfl, k1, k3⟩, k4⟩
theorem Entry.near_of {A Q : Item → Item → Prop} : (v w u : Entry) → v.Near A w → u.skel = v.skel → ∀ {r2 r3 : List Item},
    ListRel Q (w.leaves ++ r2) (u.leaves ++ r3) → w.Near Q u ∧ ListRel Q r2 r3
  | .mk k v, _, .mk ku vu, h, hs, _, _, hl => by
    obtain ⟨v', rfl, h, hn⟩ := h
    obtain ⟨rfl, g⟩ := Entry.mk.inj hs
    obtain ⟨h1, h2⟩ := Item.near_of v v' vu h g hl
    refine ⟨⟨_, rfl, h1, ?_⟩, h2⟩
    rintro tb rfl hsf hb
    rcases v with _ | _ | _ | _ | _ | _ | _ | _ | _ | _ | _ | ⟨⟨b0, m0, d0, p0, tk0⟩, t0, a0, s0, n0, dn0⟩ | _ | _
    all_goals first
      | (exact absurd h.1 (by intro h; cases h))
      | (cases h; done)
      | (obtain ⟨_, h, _⟩ := h; cases h; done)
      | skip
    obtain ⟨_, hh, c', rfl, ⟨b', m', rfl, _, hne, _⟩, _⟩ := h
    cases hh
    refine hn _ rfl hsf ?_
    have hb : b' = [] := hb
    subst hb
    rw [nearEntries_iff] at hne
    cases hne
    rfl
theorem tables_near_of {A Q : Item → Item → Prop} : (v w u : List Tbl) → nearTables A v w → u.skelTables = v.skelTables → ∀ {r2 r3 : List Item},
    ListRel Q (w.leavesTables ++ r2) (u.leavesTables ++ r3) → nearTables Q w u ∧ ListRel Q r2 r3
  | [], _, [], h, hs, _, _, hl => by cases h; exact ⟨rfl, hl⟩
  | [], _, _ :: _, h, hs, _, _, hl => by cases hs
  | _ :: _, _, [], h, hs, _, _, hl => by cases hs
  | e :: r, _, eu :: ru, h, hs, _, _, hl => by
    obtain ⟨e', r', rfl, h1, h2⟩ := h
    obtain ⟨g1, g2⟩ := List.cons.inj hs
    have hl : ListRel Q ((e'.leaves ++ r'.leavesTables) ++ _) ((eu.leaves ++ ru.leavesTables) ++ _) := hl
    rw [List.append_assoc, List.append_assoc] at hl
    obtain ⟨k1, k2⟩ := Tbl.near_of e e' eu h1 g1 hl
    obtain ⟨k3, k4⟩ := tables_near_of r r' ru h2 g2 k2
    exact ⟨⟨_, _, rfl, k1, k3⟩, k4⟩
end
end Tomlkit
