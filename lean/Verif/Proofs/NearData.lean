import Verif.Proofs.NearText
/-!
# Near containers hold the same data
-/
namespace Tomlkit
open _root_.Spec Tomlkit.Spec

/-! ### the other way round -/

mutual
theorem Item.Near.flip {Q : Item → Item → Prop} : (v w : Item) → v.Near Q w → w.Near (fun a b => Q b a) v
  | .ws .., _, h => by cases h; rfl
  | .comment _, _, h => by cases h; rfl
  | .null _, _, h => by cases h; rfl
  | .table tb, _, h => by obtain ⟨tb', rfl, h⟩ := h; exact ⟨_, rfl, Tbl.Near.flip tb tb' h⟩
  | .aot ts _ _ _, _, h => by obtain ⟨ts', rfl, h⟩ := h; exact ⟨_, rfl, tables_near_flip ts ts' h⟩
  | .integer .., _, h => (near_simple h.1).2 ⟨rfl, h.2⟩
  | .float .., _, h => (near_simple h.1).2 ⟨rfl, h.2⟩
  | .bool .., _, h => (near_simple h.1).2 ⟨rfl, h.2⟩
  | .datetime .., _, h => (near_simple h.1).2 ⟨rfl, h.2⟩
  | .date .., _, h => (near_simple h.1).2 ⟨rfl, h.2⟩
  | .time .., _, h => (near_simple h.1).2 ⟨rfl, h.2⟩
  | .str .., _, h => (near_simple h.1).2 ⟨rfl, h.2⟩
  | .array .., _, h => (near_simple h.1).2 ⟨rfl, h.2⟩
  | .inline .., _, h => (near_simple h.1).2 ⟨rfl, h.2⟩
theorem Tbl.Near.flip {Q : Item → Item → Prop} : (v w : Tbl) → v.Near Q w → w.Near (fun a b => Q b a) v
  | .mk c t a s n d, _, h => by obtain ⟨c', rfl, h, hs⟩ := h; exact ⟨_, rfl, Cont.Near.flip c c' h, hs⟩
theorem Cont.Near.flip {Q : Item → Item → Prop} : (v w : Cont) → v.Near Q w → w.Near (fun a b => Q b a) v
  | .mk b m d p tk, _, h => by obtain ⟨b', m', rfl, hp, h, hm⟩ := h; exact ⟨_, _, rfl, hp, entries_near_flip b b' h, fun k => (hm k).symm⟩
theorem entries_near_flip {Q : Item → Item → Prop} : (v w : List Entry) → nearEntries Q v w → nearEntries (fun a b => Q b a) w v
  | [], _, h => by cases h; rfl
  | e :: r, _, h => by obtain ⟨e', r', rfl, h1, h2⟩ := h; exact ⟨_, _, rfl, Entry.Near.flip e e' h1, entries_near_flip r r' h2⟩
theorem Entry.Near.flip {Q : Item → Item → Prop} : (v w : Entry) → v.Near Q w → w.Near (fun a b => Q b a) v
  | .mk k v, _, h => by
    obtain ⟨v', rfl, h, hn⟩ := h
    refine ⟨_, rfl, Item.Near.flip v v' h, ?_⟩
    rintro tb rfl hsf hb
    rcases v with _ | _ | _ | _ | _ | _ | _ | _ | _ | _ | _ | ⟨⟨b0, m0, d0, p0, tk0⟩, t0, a0, s0, n0, dn0⟩ | _ | _
    all_goals first
      | (exact absurd h.1 (by intro h; cases h))
      | (cases h; done)
      | (obtain ⟨_, h, _⟩ := h; cases h; done)
      | skip
    obtain ⟨_, hh, c', rfl, ⟨b', m', rfl, _, hne, _⟩, _⟩ := h
    cases hh
    refine hn _ rfl hsf ?_
    have hb : b' = [] := hb
    subst hb
    rw [nearEntries_iff] at hne
    cases hne
    rfl
theorem tables_near_flip {Q : Item → Item → Prop} : (v w : List Tbl) → nearTables Q v w → nearTables (fun a b => Q b a) w v
  | [], _, h => by cases h; rfl
  | e :: r, _, h => by obtain ⟨e', r', rfl, h1, h2⟩ := h; exact ⟨_, _, rfl, Tbl.Near.flip e e' h1, tables_near_flip r r' h2⟩
end

mutual
theorem Item.Near.imp {Q S : Item → Item → Prop} : (v w : Item) → v.Near Q w → (∀ a b, Q a b → S a b) → v.Near S w
  | .ws .., _, h, _ => h
  | .comment _, _, h, _ => h
  | .null _, _, h, _ => h
  | .table tb, _, h, hi => by obtain ⟨tb', rfl, h⟩ := h; exact ⟨_, rfl, Tbl.Near.imp tb tb' h hi⟩
  | .aot ts _ _ _, _, h, hi => by obtain ⟨ts', rfl, h⟩ := h; exact ⟨_, rfl, tables_near_imp ts ts' h hi⟩
  | .integer .., _, h, hi => ⟨h.1, hi _ _ h.2⟩
  | .float .., _, h, hi => ⟨h.1, hi _ _ h.2⟩
  | .bool .., _, h, hi => ⟨h.1, hi _ _ h.2⟩
  | .datetime .., _, h, hi => ⟨h.1, hi _ _ h.2⟩
  | .date .., _, h, hi => ⟨h.1, hi _ _ h.2⟩
  | .time .., _, h, hi => ⟨h.1, hi _ _ h.2⟩
  | .str .., _, h, hi => ⟨h.1, hi _ _ h.2⟩
  | .array .., _, h, hi => ⟨h.1, hi _ _ h.2⟩
  | .inline .., _, h, hi => ⟨h.1, hi _ _ h.2⟩
theorem Tbl.Near.imp {Q S : Item → Item → Prop} : (v w : Tbl) → v.Near Q w → (∀ a b, Q a b → S a b) → v.Near S w
  | .mk c t a s n d, _, h, hi => by obtain ⟨c', rfl, h, hs⟩ := h; exact ⟨_, rfl, Cont.Near.imp c c' h hi, hs⟩
theorem Cont.Near.imp {Q S : Item → Item → Prop} : (v w : Cont) → v.Near Q w → (∀ a b, Q a b → S a b) → v.Near S w
  | .mk b m d p tk, _, h, hi => by obtain ⟨b', m', rfl, hp, h, hm⟩ := h; exact ⟨_, _, rfl, hp, entries_near_imp b b' h hi, hm⟩
theorem entries_near_imp {Q S : Item → Item → Prop} : (v w : List Entry) → nearEntries Q v w → (∀ a b, Q a b → S a b) → nearEntries S v w
  | [], _, h, _ => h
  | e :: r, _, h, hi => by obtain ⟨e', r', rfl, h1, h2⟩ := h; exact ⟨_, _, rfl, Entry.Near.imp e e' h1 hi, entries_near_imp r r' h2 hi⟩
theorem Entry.Near.imp {Q S : Item → Item → Prop} : (v w : Entry) → v.Near Q w → (∀ a b, Q a b → S a b) → v.Near S w
  | .mk k v, _, h, hi => by obtain ⟨v', rfl, h, hn⟩ := h; exact ⟨_, rfl, Item.Near.imp v v' h hi, hn⟩
theorem tables_near_imp {Q S : Item → Item → Prop} : (v w : List Tbl) → nearTables Q v w → (∀ a b, Q a b → S a b) → nearTables S v w
  | [], _, h, _ => h
  | e :: r, _, h, hi => by obtain ⟨e', r', rfl, h1, h2⟩ := h; exact ⟨_, _, rfl, Tbl.Near.imp e e' h1 hi, tables_near_imp r r' h2 hi⟩
end

theorem simple_size {v : Item} (h : v.isSimple = true) : v.size = 1 := by cases v <;> first | rfl | cases h

mutual
theorem Item.near_size {Q : Item → Item → Prop} : (v w : Item) → v.Near Q w → w.size = v.size
  | .ws .., _, h => by cases h; rfl
  | .comment _, _, h => by cases h; rfl
  | .null _, _, h => by cases h; rfl
  | .table tb, _, h => by obtain ⟨tb', rfl, h⟩ := h; exact congrArg (1 + ·) (Tbl.near_size tb tb' h)
  | .aot ts _ _ _, _, h => by obtain ⟨ts', rfl, h⟩ := h; exact congrArg (1 + ·) (tables_near_size ts ts' h)
  | .integer .., _, h => simple_size h.1
  | .float .., _, h => simple_size h.1
  | .bool .., _, h => simple_size h.1
  | .datetime .., _, h => simple_size h.1
  | .date .., _, h => simple_size h.1
  | .time .., _, h => simple_size h.1
  | .str .., _, h => simple_size h.1
  | .array .., _, h => simple_size h.1
  | .inline .., _, h => simple_size h.1
theorem Tbl.near_size {Q : Item → Item → Prop} : (v w : Tbl) → v.Near Q w → w.size = v.size
  | .mk c t a s n d, _, h => by obtain ⟨c', rfl, h, hs⟩ := h; exact congrArg (1 + ·) (Cont.near_size c c' h)
theorem Cont.near_size {Q : Item → Item → Prop} : (v w : Cont) → v.Near Q w → w.size = v.size
  | .mk b m d p tk, _, h => by obtain ⟨b', m', rfl, hp, h, hm⟩ := h; exact congrArg (1 + ·) (entries_near_size b b' h)
theorem entries_near_size {Q : Item → Item → Prop} : (v w : List Entry) → nearEntries Q v w → w.entriesSize = v.entriesSize
  | [], _, h => by cases h; rfl
  | e :: r, _, h => by
    obtain ⟨e', r', rfl, h1, h2⟩ := h
    show e'.size + r'.entriesSize = e.size + r.entriesSize
    rw [Entry.near_size e e' h1, entries_near_size r r' h2]
theorem Entry.near_size {Q : Item → Item → Prop} : (v w : Entry) → v.Near Q w → w.size = v.size
  | .mk k v, _, h => by obtain ⟨v', rfl, h, hn⟩ := h; exact congrArg (1 + ·) (Item.near_size v v' h)
theorem tables_near_size {Q : Item → Item → Prop} : (v w : List Tbl) → nearTables Q v w → w.tablesSize = v.tablesSize
  | [], _, h => by cases h; rfl
  | e :: r, _, h => by
    obtain ⟨e', r', rfl, h1, h2⟩ := h
    show e'.size + r'.tablesSize = e.size + r.tablesSize
    rw [Tbl.near_size e e' h1, tables_near_size r r' h2]
end

/-! ### the proxies -/

/-- whatever the first gives, the second gives too -/
def Gives {α β : Type} (R : α → β → Prop) (x : Except Err α) (y : Except Err β) : Prop := ∀ a, x = .ok a → ∃ b, y = .ok b ∧ R a b

theorem Gives.bind {α β γ δ : Type} {R : α → β → Prop} {S : γ → δ → Prop} {x : Except Err α} {y : Except Err β} {f : α → Except Err γ} {g : β → Except Err δ}
    : Gives R x y → (∀ a b, R a b → Gives S (f a) (g b)) →
    Gives S (match x with | .error e => .error e | .ok a => f a) (match y with | .error e => .error e | .ok b => g b) := by
  intro h hf c hc
  rcases x with e | a
  · cases hc
  · obtain ⟨b, rfl, hR⟩ := h a rfl
    exact hf a b hR c hc

theorem Gives.map {α β γ δ : Type} {R : α → β → Prop} {S : γ → δ → Prop} {x : Except Err α} {y : Except Err β} {f : α → γ} {g : β → δ}
    (h : Gives R x y) (hf : ∀ a b, R a b → S (f a) (g b)) : Gives S (x.map f) (y.map g) := by
  intro c hc
  rcases x with e | a
  · cases hc
  · obtain ⟨b, rfl, hR⟩ := h a rfl
    cases hc
    exact ⟨_, rfl, hf a b hR⟩

theorem Gives.error {α β : Type} {R : α → β → Prop} {e : Err} {y : Except Err β} : Gives R (.error e : Except Err α) y := by
  intro a h; cases h

theorem Gives.fold {α β γ δ : Type} {R : α → β → Prop} {S : γ → δ → Prop} {f : α → γ → Except Err α} {g : β → δ → Except Err β}
    (hf : ∀ a b c d, R a b → S c d → Gives R (f a c) (g b d)) {l : List γ} {m : List δ} (hl : ListRel S l m) :
    ∀ {a : α} {b : β}, R a b → Gives R (foldE f a l) (foldE g b m) := by
  induction hl with
  | nil => intro a b h x hx; cases hx; exact ⟨b, rfl, h⟩
  | cons h t ih =>
    intro a b hab
    exact Gives.bind (hf a b _ _ hab h) fun a' b' h' => ih h'

/-- near containers, also the one inside a proxy -/
structure Like (Q : Item → Item → Prop) (c c' : Cont) : Prop where
  body : ListRel (Entry.Near Q) c.body c'.body
  map : ∀ k, mapGet k c'.map = mapGet k c.map
  dict : c'.dict = c.dict

/-- the container of a proxy -/
structure Scr (Q : Item → Item → Prop) (c c' : Cont) : Prop where
  body : ListRel (Entry.Near Q) c.body c'.body
  map : c'.map = c.map
  dict : c'.dict = c.dict
  keys : c'.tableKeys = c.tableKeys
  parsed : c.parsed = true
  parsed' : c'.parsed = true

theorem Scr.like {Q : Item → Item → Prop} {c c' : Cont} (h : Scr Q c c') : Like Q c c' := ⟨h.body, fun _ => by rw [h.map], h.dict⟩
theorem Cont.Near.like {Q : Item → Item → Prop} {c c' : Cont} (h : c.Near Q c') : Like Q c c' := by
  obtain ⟨h1, h2, h3, _⟩ := near_cont h
  exact ⟨h1, h2, h3⟩

theorem ListRel_flatMap {α β γ δ : Type} {R : α → β → Prop} {S : γ → δ → Prop} {f : α → List γ} {g : β → List δ} (hf : ∀ a b, R a b → ListRel S (f a) (g b))
    {l : List α} {m : List β} (h : ListRel R l m) : ListRel S (l.flatMap f) (m.flatMap g) := by
  induction h with
  | nil => exact .nil
  | cons h t ih => rw [List.flatMap_cons, List.flatMap_cons]; exact (hf _ _ h).append ih

theorem tablesAt_near {Q : Item → Item → Prop} {b b' : List Entry} (h : ListRel (Entry.Near Q) b b') (is : List Nat) :
    ListRel (Tbl.Near Q) (tablesAt b is) (tablesAt b' is) := by
  have hc : ∀ (b : List Entry) i is, tablesAt b (i :: is) = (match b[i]? with
      | some e => (match e.v with | .table tb => [tb] | _ => [])
      | none => []) ++ tablesAt b is := by
    intro b i is
    unfold tablesAt
    rw [List.filterMap_cons]
    rcases b[i]? with _ | ⟨k, v⟩
    · rfl
    · cases v <;> rfl
  induction is with
  | nil => exact .nil
  | cons i is ih =>
    rw [hc, hc]
    refine ListRel.append ?_ ih
    rcases h.at i with ⟨h1, h2⟩ | ⟨e, e', h1, h2, h3⟩
    · rw [h1, h2]; exact .nil
    · rw [h1, h2]
      rcases e with ⟨k, v⟩
      obtain ⟨v', rfl, h3, _⟩ := h3
      have hk := h3.kinds.1
      dsimp only
      rcases v with _ | _ | _ | _ | _ | _ | _ | _ | _ | _ | _ | t | _ | _ <;> rcases v' with _ | _ | _ | _ | _ | _ | _ | _ | _ | _ | _ | t' | _ | _ <;>
        first | (cases hk; done) | exact .nil | skip
      obtain ⟨t2, ht, h3⟩ := h3
      cases ht
      exact .cons h3 .nil

theorem near_setName {Q : Item → Item → Prop} {v v' : Item} (h : v.Near Q v') (s : Str) (hv : v.isTableLike = true) : (v.setName s).Near Q (v'.setName s) := by
  rcases v with _ | _ | _ | _ | _ | _ | _ | _ | _ | _ | _ | ⟨c, t, a, sf, n, d⟩ | ⟨ts, t, n, p⟩ | _ <;> try (cases hv; done)
  · obtain ⟨_, rfl, c', rfl, h, hs⟩ := h
    exact ⟨_, rfl, _, rfl, h, hs⟩
  · obtain ⟨ts', rfl, h⟩ := h
    exact ⟨_, rfl, h⟩

/-- an item that may be put in a proxy -/
def Item.Full (v : Item) : Prop := ∀ tb, v = .table tb → tb.superFlag = some true → tb.cont.body ≠ []

theorem prepare_scratch {c : Cont} (h : c.parsed = true) (key : Option SKey) (v : Item) : c.prepare key v =
    match (if v.isTableLike && v.name?.isNone then key.map fun k => v.setName k.key else some v) with
    | none => .error .attributeError
    | some v => .ok v := by
  unfold Cont.prepare
  generalize (if v.isTableLike && v.name?.isNone then key.map fun k => v.setName k.key else some v) = o
  rcases o with _ | v
  · rfl
  · rcases v with _ | _ | _ | _ | _ | _ | _ | _ | _ | _ | _ | ⟨c, t, a, sf, n, d⟩ | ⟨ts, t, n, p⟩ | _ <;> simp [h]

theorem Gives.prepare {Q : Item → Item → Prop} {c c' : Cont} (h : Scr Q c c') (key : Option SKey) {v v' : Item} (hv : v.Near Q v') (hf : v.Full) :
    Gives (fun x y => x.Near Q y ∧ x.Full) (c.prepare key v) (c'.prepare key v') := by
  rw [prepare_scratch h.parsed, prepare_scratch h.parsed']
  obtain ⟨_, _, h3, _, _, _, h7⟩ := hv.kinds
  rw [h3, h7]
  by_cases hb : (v.isTableLike && v.name?.isNone) = true
  · rw [if_pos hb, if_pos hb]
    rcases key with _ | k
    · exact Gives.error
    · intro a ha
      cases ha
      have htl : v.isTableLike = true := by rw [Bool.and_eq_true] at hb; exact hb.1
      refine ⟨_, rfl, near_setName hv _ htl, ?_⟩
      rcases v with _ | _ | _ | _ | _ | _ | _ | _ | _ | _ | _ | ⟨c, t, a, sf, n, d⟩ | ⟨ts, t, n, p⟩ | _ <;> try (cases htl; done)
      · rintro tb htb hs
        cases htb
        exact hf (.mk c t a sf n d) rfl hs
      · rintro tb htb hs
        cases htb
  · rw [if_neg hb, if_neg hb]
    intro a ha
    cases ha
    exact ⟨_, rfl, hv, hf⟩

theorem near_entry {Q : Item → Item → Prop} (key : Option SKey) {v v' : Item} (hv : v.Near Q v') (hf : v.Full) : (Entry.mk key v).Near Q (.mk key v') :=
  ⟨_, rfl, hv, hf⟩

theorem Gives.rawAppend {Q : Item → Item → Prop} {c c' : Cont} (h : Scr Q c c') (key : Option SKey) {v v' : Item} (hv : v.Near Q v') (hf : v.Full) :
    Gives (Scr Q) (c.rawAppend key v) (c'.rawAppend key v') := by
  have hsnoc : ListRel (Entry.Near Q) (c.body ++ [.mk key v]) (c'.body ++ [.mk key v']) := h.body.append (.cons (near_entry key hv hf) .nil)
  unfold Cont.rawAppend
  rcases key with _ | k
  · intro a ha
    cases ha
    exact ⟨_, rfl, hsnoc, h.map, h.dict, h.keys, h.parsed, h.parsed'⟩
  · dsimp only
    rw [h.map, h.dict, h.keys, hv.kinds.1, h.body.len]
    rcases hm : mapGet k.key c.map with _ | is <;> dsimp only
    · intro a ha
      cases ha
      exact ⟨_, rfl, hsnoc, rfl, rfl, rfl, h.parsed, h.parsed'⟩
    · rcases hl : is.getLast? with _ | i
      · exact Gives.error
      · show Gives _ (match c.body[i]? with | some e => _ | none => _) (match c'.body[i]? with | some e => _ | none => _)
        rcases h.body.at i with ⟨h1, h2⟩ | ⟨e, e', h1, h2, h3⟩
        · rw [h1, h2]; exact Gives.error
        · rw [h1, h2]
          dsimp only
          rw [(near_back h3).2.1.kinds.1]
          split
          · intro a ha
            cases ha
            exact ⟨_, rfl, hsnoc, rfl, rfl, rfl, h.parsed, h.parsed'⟩
          · exact Gives.error

theorem appendTail_scratch {c : Cont} (h : c.parsed = true) (key : Option SKey) (v : Item) : c.appendTail key v = c.rawAppend key v := by
  unfold Cont.appendTail
  rcases key with _ | k
  · rfl
  · simp [h]

/-- merging into a table that is not being read is not modelled -/
theorem merge_error {n : Nat} {t : Tbl} (ht : t.cont.parsed = false) {l : List Entry} (hl : l ≠ []) :
    ∃ e, foldE (fun (p : Tbl × Bool) (e : Entry) => (Tbl.append1 n true p.1 e.key e.v).map fun q => (q.1, p.2 || q.2)) (t.deepCopy, false) l = .error e := by
  rcases l with _ | ⟨x, l⟩
  · exact absurd rfl hl
  have hp : t.deepCopy.cont.parsed = false := by
    rcases t with ⟨⟨b, m, d, p, tk⟩, tr, a, s, n, dn⟩
    exact ht
  have : ∃ e, Tbl.append1 n true t.deepCopy x.key x.v = .error e := by
    rcases n with _ | n
    · exact ⟨_, by rw [Tbl.append1]⟩
    · rw [Tbl.append1]
      rcases n with _ | n
      · rw [Cont.append1]; exact ⟨_, rfl⟩
      · rw [Cont.append1, hp]; exact ⟨_, rfl⟩
  obtain ⟨e, he⟩ := this
  refine ⟨e, ?_⟩
  rw [foldE]
  dsimp only
  rw [he]
  rfl

theorem near_isAot {Q : Item → Item → Prop} {t t' : Tbl} (h : t.Near Q t') : t'.isAot = t.isAot := by
  rcases t with ⟨c, t, a, s, n, d⟩
  obtain ⟨c', rfl, _⟩ := h
  rfl

theorem super_some {Q : Item → Item → Prop} {t t' : Tbl} (h : t.Near Q t') (hs : t.isSuper = true) : t.superFlag = some true := by
  rcases t with ⟨c, t, a, s, n, d⟩
  obtain ⟨c', rfl, _, hn⟩ := h
  rcases s with _ | s
  · exact absurd rfl hn
  · exact congrArg some hs

theorem scratch_gives {Q : Item → Item → Prop} (n : Nat) :
    (∀ c c' key v v', Scr Q c c' → v.Near Q v' → v.Full →
      Gives (fun x y => Scr Q x.1 y.1) (Cont.append1 n true false c key v) (Cont.append1 n true false c' key v')) ∧
    (∀ c c' k, Like Q c c' → Gives Eq (Cont.has n c k) (Cont.has n c' k)) ∧
    (∀ c c' is, Like Q c c' → Gives (Scr Q) (Cont.mkProxy n c is) (Cont.mkProxy n c' is)) := by
  induction n with
  | zero =>
    refine ⟨fun c c' key v v' _ _ _ => ?_, fun c c' k _ => ?_, fun c c' is _ => ?_⟩
    · rw [Cont.append1]; exact Gives.error
    · rw [Cont.has]; exact Gives.error
    · rw [Cont.mkProxy]; exact Gives.error
  | succ n ih =>
    obtain ⟨ihA, ihH, ihP⟩ := ih
    refine ⟨fun c c' key v v' h hv hf => ?_, fun c c' k h => ?_, fun c c' is h => ?_⟩
    · rw [Cont.append1, Cont.append1]
      simp only [h.parsed, h.parsed', Bool.not_true, Bool.and_false, Bool.false_eq_true, if_false]
      have hp := Gives.prepare h key hv hf
      generalize c.prepare key v = x at hp ⊢
      generalize c'.prepare key v' = y at hp ⊢
      clear hf hv v v'
      rcases x with _ | v
      · exact Gives.error
      obtain ⟨v', rfl, hv, hf⟩ := hp v rfl
      dsimp only
      have raw : ∀ {f f' : Bool}, Gives (fun x y => Scr Q x.1 y.1) ((c.appendTail key v).map (·, f)) ((c'.appendTail key v').map (·, f')) := by
        intro f f'
        rw [appendTail_scratch h.parsed, appendTail_scratch h.parsed']
        exact Gives.map (Gives.rawAppend h key hv hf) fun a b h => h
      rcases key with _ | k
      · exact raw
      · dsimp only
        have hh := ihH c c' k.key h.like
        generalize Cont.has n c k.key = x at hh ⊢
        generalize Cont.has n c' k.key = y at hh ⊢
        rcases x with _ | b
        · exact Gives.error
        obtain ⟨_, rfl, rfl⟩ := hh b rfl
        rcases b with _ | _
        · exact raw
        dsimp only
        have hlast : (c.lastEntry k.key = none ∧ c'.lastEntry k.key = none) ∨ ∃ i e e', c.lastEntry k.key = some (i, e) ∧ c'.lastEntry k.key = some (i, e') ∧ e.Near Q e' := by
          unfold Cont.lastEntry
          rw [h.map]
          rcases mapGet k.key c.map with _ | is
          · exact .inl ⟨rfl, rfl⟩
          dsimp only
          rcases is.getLast? with _ | i
          · exact .inl ⟨rfl, rfl⟩
          dsimp only
          rcases h.body.at i with ⟨h1, h2⟩ | ⟨e, e', h1, h2, h3⟩
          · rw [h1, h2]; exact .inl ⟨rfl, rfl⟩
          · rw [h1, h2]; exact .inr ⟨i, e, e', rfl, rfl, h3⟩
        rcases hlast with ⟨h1, h2⟩ | ⟨i, cur, cur', h1, h2, h3⟩
        · rw [h1, h2]; exact Gives.error
        rw [h1, h2]
        dsimp only
        obtain ⟨hk, hc, _⟩ := near_back h3
        rw [hk]
        obtain ⟨q1, q2, q3, _⟩ := hc.kinds
        rcases v with _ | _ | _ | _ | _ | _ | _ | _ | _ | _ | _ | tb | ⟨ts, t, nm, p⟩ | _ <;> try exact Gives.error
        · obtain ⟨tb', rfl, htb⟩ := hv
          dsimp only
          rw [q3, near_isAot htb, near_isSuper htb, h.keys]
          by_cases hb1 : (!cur.v.isTableLike) = true
          · rw [if_pos hb1]; exact Gives.error
          rw [if_neg hb1, if_neg hb1]
          by_cases hb2 : tb.isAot = true
          · rw [if_pos hb2]; exact Gives.error
          rw [if_neg hb2, if_neg hb2]
          rcases hcv : cur.v with _ | _ | _ | _ | _ | _ | _ | _ | _ | _ | _ | ct | ⟨ts, t, nm, p⟩ | _ <;> try exact Gives.error
          rw [hcv] at hc
          obtain ⟨ct', hct', hct⟩ := hc
          rw [hct']
          dsimp only
          rw [near_isSuper hct]
          by_cases hb3 : ct.isSuper = true
          · rw [if_pos hb3, if_pos hb3]
            by_cases hb4 : tb.isSuper = true
            · rw [if_pos hb4, if_pos hb4]
              generalize (if (k.dotted || isDottedKey cur.key) = true then some true else _ : Option Bool) = o
              rcases o with _ | _ | _
              · exact Gives.error
              · obtain ⟨e, he⟩ := merge_error (n := n) (near_cont (near_tbl hct).1).2.2.2.2.1 (hf tb rfl (super_some htb hb4))
                dsimp only
                rw [he]
                exact Gives.error
              · simp only [Nat.lt_irrefl, if_false]
                have hr := Gives.rawAppend h (some k) (v := .table tb) (v' := .table tb') ⟨tb', rfl, htb⟩ hf
                generalize c.rawAppend (some k) (.table tb) = x at hr ⊢
                generalize c'.rawAppend (some k) (.table tb') = y at hr ⊢
                rcases x with _ | a
                · exact Gives.error
                obtain ⟨b, rfl, hab⟩ := hr a rfl
                intro x hx
                cases hx
                exact ⟨_, rfl, hab⟩
            · rw [if_neg hb4, if_neg hb4]
              by_cases hb5 : isDottedKey cur.key = true
              · rw [if_pos hb5]; exact Gives.error
              · rw [if_neg hb5, if_neg hb5]; exact raw
          · rw [if_neg hb3, if_neg hb3]
            by_cases hb4 : (!tb.isSuper) = true
            · rw [if_pos hb4]; exact Gives.error
            · rw [if_neg hb4, if_neg hb4]; exact raw
        · dsimp only
          rcases hcv : cur.v with _ | _ | _ | _ | _ | _ | _ | _ | _ | _ | _ | ct | ⟨ts, t, nm, p⟩ | _ <;> exact Gives.error
    · rw [Cont.has, Cont.has, h.map]
      rcases hm : mapGet k c.map with _ | is
      · intro a ha; exact ⟨a, ha, rfl⟩
      rcases is with _ | ⟨i, _ | ⟨j, is⟩⟩ <;> dsimp only
      · exact Gives.map (ihP c c' _ h) fun _ _ _ => rfl
      · intro a ha; exact ⟨a, ha, rfl⟩
      · exact Gives.map (ihP c c' _ h) fun _ _ _ => rfl
    · rw [Cont.mkProxy, Cont.mkProxy]
      have hp : Gives (Scr Q) (foldE (fun p (e : Entry) => (Cont.append1 n true false p e.key e.v).map Prod.fst) (Cont.empty true)
        ((tablesAt c.body is).flatMap fun t => t.cont.body)) (foldE (fun p (e : Entry) => (Cont.append1 n true false p e.key e.v).map Prod.fst) (Cont.empty true)
        ((tablesAt c'.body is).flatMap fun t => t.cont.body)) := by
        refine Gives.fold (S := Entry.Near Q) ?_ (ListRel_flatMap ?_ (tablesAt_near h.body is)) ⟨.nil, rfl, rfl, rfl, rfl, rfl⟩
        · intro a b e e' hab he
          rcases e with ⟨k, v⟩
          obtain ⟨v', rfl, hv, hf⟩ := he
          exact Gives.map (ihA a b k v v' hab hv hf) fun _ _ h => h
        · intro t t' ht
          exact (near_cont (near_tbl ht).1).1
      revert hp
      generalize foldE (fun p (e : Entry) => (Cont.append1 n true false p e.key e.v).map Prod.fst) (Cont.empty true)
        ((tablesAt c.body is).flatMap fun t => t.cont.body) = x
      generalize foldE (fun p (e : Entry) => (Cont.append1 n true false p e.key e.v).map Prod.fst) (Cont.empty true)
        ((tablesAt c'.body is).flatMap fun t => t.cont.body) = y
      intro hp
      rcases x with _ | p
      · exact Gives.error
      obtain ⟨p', rfl, hps⟩ := hp p rfl
      dsimp only
      rw [hps.map]
      have hq : Gives (fun _ _ => True) (foldE (fun _ k => (Cont.has n p k).map fun _ => ()) () (p.map.map (·.1)))
          (foldE (fun _ k => (Cont.has n p' k).map fun _ => ()) () (p.map.map (·.1))) := by
        refine Gives.fold (S := Eq) ?_ (ListRel_refl (fun _ => rfl) _) trivial
        rintro _ _ k _ _ rfl
        exact Gives.map (ihH p p' k hps.like) fun _ _ _ => trivial
      revert hq
      generalize foldE (fun _ k => (Cont.has n p k).map fun _ => ()) () (p.map.map (·.1)) = x
      generalize foldE (fun _ k => (Cont.has n p' k).map fun _ => ()) () (p.map.map (·.1)) = y
      intro hq
      rcases x with _ | u
      · exact Gives.error
      obtain ⟨_, rfl, _⟩ := hq u rfl
      intro a ha
      cases ha
      exact ⟨_, rfl, hps⟩

/-! ### the data -/

/-- the data of two values is the same -/
def DataEq (v w : Item) : Prop := ∃ n0, ∀ n ≥ n0, w.unwrap n = v.unwrap n

theorem DataEq.symm {v w : Item} (h : DataEq v w) : DataEq w v := by
  obtain ⟨n0, h⟩ := h
  exact ⟨n0, fun n hn => (h n hn).symm⟩

theorem unwrapAll_more {n m : Nat} {l : List Item} {w : List PyVal} (h : unwrapAll n l = .ok w) (hm : n ≤ m) : unwrapAll m l = .ok w := by
  induction hm with
  | refl => exact h
  | step _ ih => exact (unwrap_succ _).2.1 _ _ ih

theorem unwrapKeys_more {n m : Nat} {c : Cont} {l : List Str} {w : List PyPair} (h : unwrapKeys n c l = .ok w) (hm : n ≤ m) : unwrapKeys m c l = .ok w := by
  induction hm with
  | refl => exact h
  | step _ ih => exact (unwrap_succ _).2.2.2.1 _ _ _ ih

theorem unwrapKey_more {n m : Nat} {c : Cont} {k : Str} {w : PyVal} (h : unwrapKey n c k = .ok w) (hm : n ≤ m) : unwrapKey m c k = .ok w := by
  induction hm with
  | refl => exact h
  | step _ ih => exact (unwrap_succ _).2.2.2.2 _ _ _ ih

theorem item_near {Q : Item → Item → Prop} {c c' : Cont} (h : Like Q c c') (k : Str) :
    (∃ e, c.item k = .error e) ∨ (∃ v v', c.item k = .ok (.inl v) ∧ c'.item k = .ok (.inl v') ∧ v.Near Q v') ∨
      ∃ is, c.item k = .ok (.inr is) ∧ c'.item k = .ok (.inr is) := by
  unfold Cont.item
  rw [h.map]
  rcases mapGet k c.map with _ | is
  · exact .inl ⟨_, rfl⟩
  rcases is with _ | ⟨i, _ | ⟨j, is⟩⟩ <;> dsimp only
  · exact .inr (.inr ⟨_, rfl, rfl⟩)
  · rcases h.body.at i with ⟨h1, h2⟩ | ⟨e, e', h1, h2, h3⟩
    · rw [h1]; exact .inl ⟨_, rfl⟩
    · rw [h1, h2]; exact .inr (.inl ⟨_, _, rfl, rfl, (near_back h3).2.1⟩)
  · exact .inr (.inr ⟨_, rfl, rfl⟩)

theorem Like.size {Q : Item → Item → Prop} {c c' : Cont} (h : Like Q c c') : c'.size = c.size := by
  rcases c with ⟨b, m, d, p, tk⟩
  rcases c' with ⟨b', m', d', p', tk'⟩
  exact congrArg (1 + ·) (entries_near_size b b' (nearEntries_iff.2 h.body))

theorem near_unwrap (n : Nat) :
    (∀ v v' w, v.Near DataEq v' → Item.unwrap n v = .ok w → ∃ m, Item.unwrap m v' = .ok w) ∧
    (∀ l l' w, ListRel (Item.Near DataEq) l l' → unwrapAll n l = .ok w → ∃ m, unwrapAll m l' = .ok w) ∧
    (∀ c c' w, Like DataEq c c' → Cont.unwrap n c = .ok w → ∃ m, Cont.unwrap m c' = .ok w) ∧
    (∀ c c' l w, Like DataEq c c' → unwrapKeys n c l = .ok w → ∃ m, unwrapKeys m c' l = .ok w) ∧
    (∀ c c' k w, Like DataEq c c' → unwrapKey n c k = .ok w → ∃ m, unwrapKey m c' k = .ok w) := by
  induction n with
  | zero =>
    refine ⟨fun v v' w _ h => ?_, fun l l' w _ h => ?_, fun c c' w _ h => ?_, fun c c' l w _ h => ?_, fun c c' k w _ h => ?_⟩
    · unfold Item.unwrap at h; cases h
    · unfold unwrapAll at h; cases h
    · unfold Cont.unwrap at h; cases h
    · unfold unwrapKeys at h; cases h
    · unfold unwrapKey at h; cases h
  | succ n ih =>
    obtain ⟨i1, i2, i3, i4, i5⟩ := ih
    refine ⟨fun v v' w hn h => ?_, fun l l' w hn h => ?_, fun c c' w hn h => ?_, fun c c' l w hn h => ?_, fun c c' k w hn h => ?_⟩
    · have hleaf : v.isSimple = true → ∃ m, Item.unwrap m v' = .ok w := by
        intro hs
        obtain ⟨_, n0, hd⟩ := (near_simple hs).1 hn
        exact ⟨n0 + (n + 1), by rw [hd _ (by omega)]; exact Item.unwrap_more h (by omega)⟩
      rcases v with _ | _ | _ | _ | _ | _ | _ | _ | _ | _ | _ | tb | ⟨ts, t, nm, p⟩ | _ <;> first | exact hleaf rfl | skip
      · cases hn; exact ⟨_, h⟩
      · cases hn; exact ⟨_, h⟩
      · obtain ⟨tb', rfl, hn⟩ := hn
        have h : (Cont.unwrap n tb.cont).map PyVal.dict = .ok w := by unfold Item.unwrap at h; exact h
        rcases hc : Cont.unwrap n tb.cont with e | l <;> rw [hc] at h <;> cases h
        obtain ⟨m, hm⟩ := i3 _ _ _ (near_tbl hn).1.like hc
        refine ⟨m + 1, ?_⟩
        unfold Item.unwrap
        dsimp only
        rw [hm]; rfl
      · obtain ⟨ts', rfl, hn⟩ := hn
        have h : (unwrapAll n (ts.map Item.table)).map PyVal.list = .ok w := by unfold Item.unwrap at h; exact h
        rcases hc : unwrapAll n (ts.map Item.table) with e | l <;> rw [hc] at h <;> cases h
        have hl : ListRel (Item.Near DataEq) (ts.map Item.table) (ts'.map Item.table) := by
          rw [nearTables_iff] at hn
          clear hc hleaf h
          induction hn with
          | nil => exact .nil
          | cons h1 _ ih => exact .cons ⟨_, rfl, h1⟩ ih
        obtain ⟨m, hm⟩ := i2 _ _ _ hl hc
        refine ⟨m + 1, ?_⟩
        unfold Item.unwrap
        dsimp only
        rw [hm]; rfl
      · cases hn; exact ⟨_, h⟩
    · cases hn with
      | nil => exact ⟨_, h⟩
      | @cons v v' l l' h1 h2 =>
        unfold unwrapAll at h
        try dsimp only at h
        rcases hv : Item.unwrap n v with e | x <;> rw [hv] at h
        · cases h
        dsimp only at h
        rcases hr : unwrapAll n l with e | y <;> rw [hr] at h <;> cases h
        obtain ⟨m1, g1⟩ := i1 _ _ _ h1 hv
        obtain ⟨m2, g2⟩ := i2 _ _ _ h2 hr
        refine ⟨m1 + m2 + 1, ?_⟩
        unfold unwrapAll
        try dsimp only
        rw [Item.unwrap_more g1 (by omega), unwrapAll_more g2 (by omega)]
        rfl
    · unfold Cont.unwrap at h
      try dsimp only at h
      obtain ⟨m, hm⟩ := i4 _ _ _ _ hn h
      refine ⟨m + 1, ?_⟩
      unfold Cont.unwrap
      try dsimp only
      rw [hn.dict]
      exact hm
    · rcases l with _ | ⟨k, l⟩
      · unfold unwrapKeys at h
        cases h
        exact ⟨1, by unfold unwrapKeys; rfl⟩
      · unfold unwrapKeys at h
        try dsimp only at h
        rcases hv : unwrapKey n c k with e | x <;> rw [hv] at h
        · cases h
        dsimp only at h
        rcases hr : unwrapKeys n c l with e | y <;> rw [hr] at h <;> cases h
        obtain ⟨m1, g1⟩ := i5 _ _ _ _ hn hv
        obtain ⟨m2, g2⟩ := i4 _ _ _ _ hn hr
        refine ⟨m1 + m2 + 1, ?_⟩
        unfold unwrapKeys
        try dsimp only
        rw [unwrapKey_more g1 (by omega), unwrapKeys_more g2 (by omega)]
        rfl
    · unfold unwrapKey at h
      try dsimp only at h
      rcases item_near hn k with ⟨e, h1⟩ | ⟨v, v', h1, h2, h3⟩ | ⟨is, h1, h2⟩ <;> rw [h1] at h <;> dsimp only at h
      · cases h
      · obtain ⟨m, hm⟩ := i1 _ _ _ h3 h
        refine ⟨m + 1, ?_⟩
        unfold unwrapKey
        try dsimp only
        rw [h2]
        exact hm
      · rcases hp : Cont.mkProxy (fuelFor c (.null {})) c is with e | p <;> rw [hp] at h <;> dsimp only at h
        · cases h
        obtain ⟨p', hp', hs⟩ := (scratch_gives _).2.2 _ _ is hn p hp
        rcases hc : Cont.unwrap n p with e | l <;> rw [hc] at h <;> cases h
        obtain ⟨m, hm⟩ := i3 _ _ _ hs.like hc
        refine ⟨m + 1, ?_⟩
        unfold unwrapKey
        try dsimp only
        rw [h2]
        dsimp only
        have : fuelFor c' (.null {}) = fuelFor c (.null {}) := by unfold fuelFor; rw [hn.size]
        rw [this, hp']
        dsimp only
        rw [hm]
        rfl

/-- near containers hold the same data -/
theorem near_data {c c' : Cont} (h : c.Near DataEq c') : SameData c c' := by
  intro l
  constructor
  · rintro ⟨n, hn⟩
    exact (near_unwrap n).2.2.1 _ _ _ h.like hn
  · rintro ⟨n, hn⟩
    have h' := Cont.Near.flip _ _ h
    have : c'.Near DataEq c := Cont.Near.imp _ _ h' fun a b hab => hab.symm
    exact (near_unwrap n).2.2.1 _ _ _ this.like hn

end Tomlkit
