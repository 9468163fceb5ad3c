import Verif.Proofs.TwinTables
/-!
# Reading a text in which the values of some lines are changed

The text is changed from its end to its beginning: what is read first is changed last, so that for every step the text that follows is
known. `Upd` relates the value of a line to the new value, `Q` the new value to what is read back.
-/
namespace Tomlkit
open _root_.Spec Tomlkit.Spec

/-! ### related lists -/

theorem _root_.Tomlkit.Spec.ListRel.append {α β : Type} {R : α → β → Prop} {l1 l2 : List α} {m1 m2 : List β} (h1 : ListRel R l1 m1) (h2 : ListRel R l2 m2) :
    ListRel R (l1 ++ l2) (m1 ++ m2) := by
  induction h1 with
  | nil => exact h2
  | cons h _ ih => exact .cons h ih

theorem _root_.Tomlkit.Spec.ListRel.split {α β : Type} {R : α → β → Prop} : ∀ {l1 l2 : List α} {m : List β}, ListRel R (l1 ++ l2) m →
    ∃ m1 m2, m = m1 ++ m2 ∧ ListRel R l1 m1 ∧ ListRel R l2 m2
  | [], _, m, h => ⟨[], m, rfl, .nil, h⟩
  | a :: l1, l2, m, h => by
    rcases m with _ | ⟨b, m⟩
    · cases h
    · cases h with
      | cons h t =>
        obtain ⟨m1, m2, rfl, h1, h2⟩ := ListRel.split t
        exact ⟨b :: m1, m2, rfl, .cons h h1, h2⟩

theorem _root_.Tomlkit.Spec.ListRel.one {α β : Type} {R : α → β → Prop} {a : α} {m : List β} (h : ListRel R [a] m) : ∃ b, m = [b] ∧ R a b := by
  cases h with
  | cons h t => cases t; exact ⟨_, rfl, h⟩

theorem _root_.Tomlkit.Spec.ListRel.none {α β : Type} {R : α → β → Prop} {m : List β} (h : ListRel R ([] : List α) m) : m = [] := by cases h; rfl

/-- `us` pairs the values `vs` with what is read back for the new values `ws` -/
def Fits (Q : Item → Item → Prop) (us : List (Item × Item)) (vs ws : List Item) : Prop :=
  us.map Prod.fst = vs ∧ ListRel Q ws (us.map Prod.snd)

theorem Fits.nil (Q : Item → Item → Prop) : Fits Q [] [] [] := ⟨rfl, .nil⟩

theorem Fits.append {Q : Item → Item → Prop} {us1 us2 : List (Item × Item)} {vs1 vs2 ws1 ws2 : List Item} (h1 : Fits Q us1 vs1 ws1)
    (h2 : Fits Q us2 vs2 ws2) : Fits Q (us1 ++ us2) (vs1 ++ vs2) (ws1 ++ ws2) :=
  ⟨by rw [List.map_append, h1.1, h2.1], by rw [List.map_append]; exact h1.2.append h2.2⟩

/-! ### the other run -/

/-- the run is out of fuel, or ends well -/
def Follow {α : Type} (x : Res α) (F : α → St → Prop) : Prop := (∃ s, x = .err .fuel s) ∨ ∃ a s, x = .ok a s ∧ F a s

theorem Follow.bind {α β : Type} {p : P α} {f : α → P β} {st : St} {F : α → St → Prop} {G : β → St → Prop} (h : Follow (p st) F)
    (hf : ∀ a s, p st = .ok a s → F a s → Follow (f a s) G) : Follow ((p >>= f) st) G := by
  rcases h with ⟨s, h⟩ | ⟨a, s, h, hF⟩
  · exact .inl ⟨s, by rw [P.bind_def, h]⟩
  · rw [P.bind_def, h]; exact hf a s h hF

theorem Follow.ok {α : Type} {a : α} {s : St} {F : α → St → Prop} (h : F a s) : Follow (.ok a s) F := .inr ⟨a, s, rfl, h⟩

theorem Follow.fuel {α : Type} {s : St} {F : α → St → Prop} : Follow (.err .fuel s) F := .inl ⟨s, rfl⟩

/-- what is read between two states can be read with other values -/
def Lock (Upd Q : Item → Item → Prop) (vs : List Item) (s : St) (C : Str → Prop) (run : Str → Str → List (Item × Item) → Prop) : Prop :=
  ∀ ws, ListRel Upd vs ws → ∀ R1, Meet s R1 → ∃ R' us, Fits Q us vs ws ∧ C R' ∧ run R' R1 us

theorem Lock.comp {Upd Q : Item → Item → Prop} {vs1 vs2 : List Item} {sm s : St} {C : Str → Prop} {run1 run2 run : Str → Str → List (Item × Item) → Prop}
    (h1 : Lock Upd Q vs1 sm C run1) (h2 : Lock Upd Q vs2 s (Meet sm) run2)
    (hr : ∀ R' Rm R1 us1 us2, Meet s R1 → C R' → Meet sm Rm → run1 R' Rm us1 → run2 Rm R1 us2 → run R' R1 (us1 ++ us2)) :
    Lock Upd Q (vs1 ++ vs2) s C run := by
  intro ws hws R1 hm
  obtain ⟨ws1, ws2, rfl, hw1, hw2⟩ := ListRel.split hws
  obtain ⟨Rm, us2, f2, c2, r2⟩ := h2 ws2 hw2 R1 hm
  obtain ⟨R', us1, f1, c1, r1⟩ := h1 ws1 hw1 Rm c2
  exact ⟨R', us1 ++ us2, f1.append f2, c1, hr R' Rm R1 us1 us2 hm c1 c2 r1 r2⟩

/-- nothing is read -/
theorem Lock.stay {Upd Q : Item → Item → Prop} {s : St} {C : Str → Prop} {run : Str → Str → List (Item × Item) → Prop}
    (h : ∀ R1, Meet s R1 → C R1 ∧ run R1 R1 []) : Lock Upd Q [] s C run := by
  intro ws hws R1 hm
  cases hws.none
  exact ⟨R1, [], .nil Q, (h R1 hm).1, (h R1 hm).2⟩

/-! ### lines -/

/-- a line can be read with a new value -/
def LineHyp (Upd Q : Item → Item → Prop) : Prop :=
  ∀ R e a k v s, parseItem ⟨R, e, a, []⟩ = .ok (some (some k, v)) s → s.loss = [] → ∀ w, Upd v w → ∀ R1 : Str, R1.head? = s.rest.head? →
    ∃ R' i, Q w i ∧ R'.head? = R.head? ∧ ∀ e', ∃ e1, parseItem ⟨R', e', a, []⟩ = .ok (some (some k, i)) ⟨R1, e1, a, []⟩

theorem parseItem_ext (R e e' : Str) (a : List Key) (l : List Loss) : parseItem ⟨R, e, a, l⟩ = parseItem ⟨R, e', a, l⟩ := rfl

theorem parseItem_aot {st s : St} {x : Option (Option Key × Item)} (h : parseItem st = .ok x s) : s.aot = st.aot := by
  have := parseItem_does st
  unfold P.wp at this
  rw [h] at this
  exact this.adv.aot

/-- an item that is no line has no value -/
theorem parseItem_blank {st s : St} {v : Item} (h : parseItem st = .ok (some (none, v)) s) : v.leaves = [] := by
  rcases st with ⟨r, e, a, l⟩
  unfold parseItem at h
  obtain ⟨_, s1, q1, h⟩ := bind_ok h
  cases q1
  rw [getSt_bind] at h
  obtain ⟨_, s1, q1, h⟩ := bind_ok h
  rw [skip_st] at q1
  cases q1
  generalize r.takeWhile isSpTabCr = W at *
  generalize r.dropWhile isSpTabCr = R at *
  rw [getSt_bind] at h
  by_cases h10 : (St.mk R ([] ++ W) a l).cur = 10
  · rw [if_pos h10] at h
    obtain ⟨_, s1, q1, h⟩ := bind_ok h
    obtain ⟨_, s2, q2, h⟩ := bind_ok h
    cases q2
    cases h
    rfl
  rw [if_neg h10] at h
  by_cases hE : ((St.mk R ([] ++ W) a l).atEnd && !(St.mk R ([] ++ W) a l).ext.isEmpty) = true
  · rw [if_pos hE] at h
    cases h
    rfl
  rw [if_neg hE] at h
  by_cases h35 : (St.mk R ([] ++ W) a l).cur = 35
  · rw [if_pos h35] at h
    obtain ⟨_, s1, q1, h⟩ := bind_ok h
    cases q1
    obtain ⟨⟨cws, cm, tr⟩, s2, q2, h⟩ := bind_ok h
    dsimp only at h
    cases h
    rfl
  rw [if_neg h35] at h
  by_cases h91 : (St.mk R ([] ++ W) a l).cur = 91
  · rw [if_pos h91] at h; cases h
  rw [if_neg h91] at h
  obtain ⟨⟨k', v'⟩, s1, q1, h⟩ := bind_ok h
  cases h

theorem Fits.one {Q : Item → Item → Prop} {v w i : Item} (h : Q w i) : Fits Q [(v, i)] [v] [w] := ⟨rfl, .cons h .nil⟩

theorem skel_simple {v v' : Item} (h : v.isSimple = true) (h' : v'.isSimple = true) : v'.skel = v.skel := by
  have e : ∀ w : Item, w.isSimple = true → w.skel = .integer 0 {} [] := fun w hw => by cases w <;> first | rfl | cases hw
  rw [e v h, e v' h']

/-- an item is read with other values -/
theorem item_lock {Upd Q : Item → Item → Prop} (hL : LineHyp Upd Q) {R e : Str} {a : List Key} {k : Option Key} {v : Item} {s : St}
    (h : parseItem ⟨R, e, a, []⟩ = .ok (some (k, v)) s) (hl : s.loss = []) {ws : List Item} (hw : ListRel Upd v.leaves ws) {R1 : Str}
    (hh : R1.head? = s.rest.head?) :
    ∃ R' i us, Fits Q us v.leaves ws ∧ R'.head? = R.head? ∧ TwinI us v i ∧ ∀ e', ∃ e1, parseItem ⟨R', e', a, []⟩ = .ok (some (k, i)) ⟨R1, e1, a, []⟩ := by
  have hg := parseItem_good h
  rcases k with _ | k
  · have hv := parseItem_blank h
    rw [hv] at hw ⊢
    cases hw.none
    obtain ⟨u, hu, h1⟩ := local_run (fun _ _ _ _ _ _ _ => Rel.parseItem) mono_parseItem h hl (parseItem_aot h) hh
    refine ⟨u ++ R1, v, [], .nil Q, ?_, ⟨rfl, hg, hg, hv, hv⟩, fun e' => ⟨s.ext, h1⟩⟩
    rw [hu]; exact head_append hh
  · obtain ⟨_, _, _, hp⟩ := (keeps_fact (parseItem_keeps _) h hl).pair k v rfl
    have hs : v.isSimple = true := hp.simple
    rw [leaves_simple hs] at hw ⊢
    obtain ⟨w, rfl, hw'⟩ := hw.one
    obtain ⟨R', i, hq, hhd, hr⟩ := hL R e a k v s h hl w hw' R1 hh
    obtain ⟨e1, h1⟩ := hr e
    obtain ⟨_, _, _, hp'⟩ := (keeps_fact (parseItem_keeps _) h1 rfl).pair k i rfl
    have hs' : i.isSimple = true := hp'.simple
    exact ⟨R', i, [(v, i)], .one hq, hhd, ⟨skel_simple hs hs', hg, parseItem_good h1, leaves_simple hs, leaves_simple hs'⟩, hr⟩

/-! ### tables -/

theorem mono_table (n : Nat) (parent : Option Key) : Mono (parseTable n parent) := mono_keeps fun st => (tables_keep n).1 st parent
theorem mono_loop (n : Nat) (full : Key) (tb : Tbl) : Mono (tableLoop n full tb) := mono_keeps fun st => (tables_keep n).2.1 st full tb
theorem mono_child (n : Nat) (full : Key) (tb : Tbl) : Mono (childLoop n full tb) := mono_keeps fun st => (tables_keep n).2.2.1 st full tb
theorem mono_aot (n : Nat) (first : Tbl) (name : Key) : Mono (parseAot n first name) := mono_keeps fun st => (tables_keep n).2.2.2.1 st first name
theorem mono_aotLoop (n : Nat) (name : Key) (ts : List Tbl) : Mono (aotLoop n name ts) := mono_keeps fun st => (tables_keep n).2.2.2.2 st name ts

theorem lift_inv {α : Type} {x : Except Err α} {st s : St} {a : α} (h : lift x st = .ok a s) : x = .ok a ∧ s = st := by
  unfold lift at h
  split at h <;> cases h
  exact ⟨rfl, rfl⟩

/-- one round of the loop over the entries of a table -/
theorem tableLoop_step {n : Nat} {full : Key} {tb tb1 : Tbl} {st s : St} (h : tableLoop (n + 1) full tb st = .ok tb1 s) (hl : s.loss = []) :
    (tb1 = tb ∧ s = st ∧ st.rest = []) ∨
    (st.rest ≠ [] ∧ ∃ s1, parseItem st = .ok none s1 ∧ s1.loss = [] ∧ s1.cur = 91 ∧ childLoop n full tb s1 = .ok tb1 s) ∨
    (st.rest ≠ [] ∧ ∃ k v s1, parseItem st = .ok (some (k, v)) s1 ∧ s1.loss = [] ∧
      ((∃ c, mergeWs tb.cont v = some c ∧ tableLoop n full (tb.setCont c) s1 = .ok tb1 s) ∨
        (mergeWs tb.cont v = none ∧ ∃ r, tb.rawAppend k v = .ok (r, false) ∧ tableLoop n full r s1 = .ok tb1 s))) := by
  unfold tableLoop at h
  rw [getSt_bind] at h
  by_cases hE : st.atEnd = true
  · rw [if_pos hE] at h
    cases h
    exact .inl ⟨rfl, rfl, by simpa [St.atEnd] using hE⟩
  have hne : st.rest ≠ [] := by intro h0; exact hE (by unfold St.atEnd; rw [h0]; rfl)
  rw [if_neg hE] at h
  obtain ⟨x, s1, q1, h⟩ := bind_ok h
  rcases x with _ | ⟨k, v⟩
  · refine .inr (.inl ⟨hne, s1, q1, ?_⟩)
    dsimp only at h
    rw [getSt_bind] at h
    by_cases hc : s1.cur = 91
    · rw [if_pos hc] at h
      exact ⟨loss_nil (mono_child _ _ _ _ _ _ h).2 hl, hc, h⟩
    · rw [if_neg hc] at h; cases h
  · refine .inr (.inr ⟨hne, k, v, s1, q1, ?_⟩)
    dsimp only at h
    rcases hm : mergeWs tb.cont v with _ | c <;> rw [hm] at h
    · dsimp only at h
      obtain ⟨⟨r, mv⟩, s2, q2, h⟩ := bind_ok h
      obtain ⟨hr, hs2⟩ := lift_inv q2
      rw [hs2] at h
      obtain ⟨_, s3, q3, h⟩ := bind_ok h
      have hl3 := loss_nil (mono_loop _ _ _ _ _ _ h).2 hl
      have hs3 := note_quiet q3 hl3
      rw [hs3] at h hl3
      have hmv : mv = false := note_false q3 (by rw [hs3]; exact hl3)
      subst hmv
      exact ⟨hl3, .inr ⟨rfl, r, hr, h⟩⟩
    · dsimp only at h
      exact ⟨loss_nil (mono_loop _ _ _ _ _ _ h).2 hl, .inl ⟨c, rfl, h⟩⟩

theorem peekTable_inv {st s : St} {pk : Bool × Key} (h : peekTable st = .ok pk s) : s = st := by
  have := peekTable_at st
  unfold P.wp at this
  rw [h] at this
  exact this.2.1

/-- one round of the loop over the child tables -/
theorem childLoop_step {n : Nat} {full : Key} {tb tb1 : Tbl} {st s : St} (h : childLoop (n + 1) full tb st = .ok tb1 s) (hl : s.loss = []) :
    (tb1 = tb ∧ s = st ∧ st.rest = []) ∨
    (st.rest ≠ [] ∧ ∃ pk, peekTable st = .ok pk st ∧ isChild full pk.2 = false ∧ tb1 = tb ∧ s = st) ∨
    (st.rest ≠ [] ∧ ∃ pk, peekTable st = .ok pk st ∧ isChild full pk.2 = true ∧ ∃ p s1, parseTable n (some full) st = .ok p s1 ∧ s1.loss = [] ∧
      ∃ r, tb.rawAppend (some p.1) p.2 = .ok (r, false) ∧ childLoop n full r s1 = .ok tb1 s) := by
  unfold childLoop at h
  rw [getSt_bind] at h
  by_cases hE : st.atEnd = true
  · rw [if_pos hE] at h
    cases h
    exact .inl ⟨rfl, rfl, by simpa [St.atEnd] using hE⟩
  have hne : st.rest ≠ [] := by intro h0; exact hE (by unfold St.atEnd; rw [h0]; rfl)
  rw [if_neg hE] at h
  obtain ⟨⟨ia, nx⟩, s1, q1, h⟩ := bind_ok h
  have hs1 := peekTable_inv q1
  rw [hs1] at h q1
  dsimp only at h
  by_cases hc : isChild full nx = true
  · rw [if_pos hc] at h
    refine .inr (.inr ⟨hne, _, q1, hc, ?_⟩)
    obtain ⟨⟨k, v⟩, s2, q2, h⟩ := bind_ok h
    dsimp only at h
    obtain ⟨⟨r, mv⟩, s3, q3, h⟩ := bind_ok h
    obtain ⟨hr, hs3⟩ := lift_inv q3
    rw [hs3] at h
    obtain ⟨_, s4, q4, h⟩ := bind_ok h
    have hl3 := loss_nil (mono_child _ _ _ _ _ _ h).2 hl
    have hs4 := note_quiet q4 hl3
    rw [hs4] at h hl3
    have hmv : mv = false := note_false q4 (by rw [hs4]; exact hl3)
    subst hmv
    exact ⟨_, _, q2, hl3, r, hr, h⟩
  · rw [if_neg hc] at h
    cases h
    exact .inr (.inl ⟨hne, _, q1, by simpa using hc, rfl, rfl⟩)

/-- one round of the loop over the elements of an array of tables -/
theorem aotLoop_step {n : Nat} {name : Key} {ts l : List Tbl} {st s : St} (h : aotLoop (n + 1) name ts st = .ok l s) (hl : s.loss = []) :
    (l = ts ∧ s = st ∧ st.rest = []) ∨
    (st.rest ≠ [] ∧ ∃ pk, peekTable st = .ok pk st ∧ (pk.1 && Key.eqv pk.2 name) = false ∧ l = ts ∧ s = st) ∨
    (st.rest ≠ [] ∧ ∃ pk, peekTable st = .ok pk st ∧ (pk.1 && Key.eqv pk.2 name) = true ∧ ∃ k t s1, parseTable n (some name) st = .ok (k, .table t) s1 ∧
      s1.loss = [] ∧ aotLoop n name (ts ++ [t]) s1 = .ok l s) := by
  unfold aotLoop at h
  rw [getSt_bind] at h
  by_cases hE : st.atEnd = true
  · rw [if_pos hE] at h
    cases h
    exact .inl ⟨rfl, rfl, by simpa [St.atEnd] using hE⟩
  have hne : st.rest ≠ [] := by intro h0; exact hE (by unfold St.atEnd; rw [h0]; rfl)
  rw [if_neg hE] at h
  obtain ⟨⟨ia, nx⟩, s1, q1, h⟩ := bind_ok h
  have hs1 := peekTable_inv q1
  rw [hs1] at h q1
  dsimp only at h
  by_cases hc : (ia && Key.eqv nx name) = true
  · rw [if_pos hc] at h
    refine .inr (.inr ⟨hne, _, q1, hc, ?_⟩)
    obtain ⟨⟨k, v⟩, s2, q2, h⟩ := bind_ok h
    rcases v with _ | _ | _ | _ | _ | _ | _ | _ | _ | _ | _ | tb | _ | _ <;> first | cases h | skip
    dsimp only at h
    exact ⟨k, tb, s2, q2, loss_nil (mono_aotLoop _ _ _ _ _ _ h).2 hl, h⟩
  · rw [if_neg hc] at h
    cases h
    exact .inr (.inl ⟨hne, _, q1, by simpa using hc, rfl, rfl⟩)

/-- the key under which a table is stored -/
def Header.lastKey (h : Header) : List SKey → Key
  | [k] => .single k
  | _ => h.key

/-- a new array of tables begins -/
def Header.newAot (h : Header) (a : List Key) : Bool := h.isAot && (match a.getLast? with | some top => !Key.eqv h.key top | none => true)

/-- the name parts below the parent -/
def Header.below (h : Header) (parent : Option Key) : List SKey := h.key.parts.drop ((parent.map fun k => k.parts.length).getD 0)

/-- the name of the table that gets the entries -/
def Header.inner (h : Header) (parts : List SKey) : Str := match parts.getLast? with | some p => p.key | none => h.key.key

/-- the table is complete -/
def tableEnd (n : Nat) (h : Header) (parts : List SKey) (tb : Tbl) : P (Key × Item) := fun st =>
  match parts with
  | k :: p :: r => .ok (.single k, .table (h.chain tb ⟨[], h.cws, h.comment, h.trail⟩ (h.isAot && st.aot.any fun a => Key.eqv (.single k) a) k.key (p :: r))) st
  | l => if h.newAot st.aot then (parseAot n tb h.key >>= fun a => pure (h.lastKey l, a) : P (Key × Item)) st else .ok (h.lastKey l, .table tb) st

theorem parseTable_eq (n : Nat) (parent : Option Key) : parseTable (n + 1) parent = (parseHeader >>= fun h =>
    note (h.isAot && h.key.asString != headerPath parent (h.below parent)) .respelled >>= fun _ =>
    tableLoop n h.key (h.leaf (h.inner (h.below parent))) >>= fun tb => lift tb.cont.validateAll >>= fun _ => tableEnd n h (h.below parent) tb) := by
  rw [parseTable]
  congr 1
  funext h
  show (note (h.isAot && h.key.asString != headerPath parent (h.below parent)) .respelled >>= fun _ => _) = _
  congr 1
  funext _
  show (tableLoop n h.key (h.leaf (h.inner (h.below parent))) >>= fun tb => _) = _
  congr 1
  funext tb
  congr 1
  funext _
  funext st
  unfold tableEnd
  have he : ∀ (b : Bool) (m1 m2 : P (Key × Item)), (if b = true then m1 else m2) st = if b = true then m1 st else m2 st := by
    intro b m1 m2; cases b <;> rfl
  generalize hp : h.below parent = parts
  have hp' : h.key.parts.drop ((parent.map fun k => k.parts.length).getD 0) = parts := hp
  rw [hp', getSt_bind]
  rcases parts with _ | ⟨k, _ | ⟨q, r⟩⟩
  · exact he (h.newAot st.aot) _ _
  · exact he (h.newAot st.aot) _ _
  · rfl

/-- the parts of `_parse_table` -/
theorem parseTable_step {n : Nat} {parent : Option Key} {st s : St} {p : Key × Item} (h : parseTable (n + 1) parent st = .ok p s) (hl : s.loss = []) :
    ∃ hd s1 tb s2, parseHeader st = .ok hd s1 ∧ s1.loss = [] ∧ (hd.isAot && hd.key.asString != headerPath parent (hd.below parent)) = false ∧
      tableLoop n hd.key (hd.leaf (hd.inner (hd.below parent))) s1 = .ok tb s2 ∧ s2.loss = [] ∧ tb.cont.validateAll = .ok () ∧
      tableEnd n hd (hd.below parent) tb s2 = .ok p s := by
  rw [parseTable_eq] at h
  obtain ⟨hd, s1, q1, h⟩ := bind_ok h
  obtain ⟨_, s2, q2, h⟩ := bind_ok h
  obtain ⟨tb, s3, q3, h⟩ := bind_ok h
  obtain ⟨_, s4, q4, h⟩ := bind_ok h
  obtain ⟨hv, hs4⟩ := lift_inv q4
  rw [hs4] at h
  have hl3 : s3.loss = [] := by
    refine loss_nil ?_ hl
    unfold tableEnd at h
    generalize hd.below parent = parts at h
    have hre : ∀ l, (if hd.newAot s3.aot then (parseAot n tb hd.key >>= fun a => pure (hd.lastKey l, a) : P (Key × Item)) s3
        else .ok (hd.lastKey l, .table tb) s3) = .ok p s → s3.loss <+: s.loss := by
      intro l h
      split at h
      · obtain ⟨a, s5, q5, h⟩ := bind_ok h
        cases h
        exact (mono_aot _ _ _ _ _ _ q5).2
      · cases h; exact List.prefix_refl _
    rcases parts with _ | ⟨k, _ | ⟨q, r⟩⟩
    · exact hre _ h
    · exact hre _ h
    · cases h; exact List.prefix_refl _
  have hl2 := loss_nil (mono_loop _ _ _ _ _ _ q3).2 hl3
  have hs2 := note_quiet q2 hl2
  have hn := note_false q2 hl2
  rw [hs2] at q3 hl2
  exact ⟨hd, s1, tb, s3, q1, hl2, hn, q3, hl3, hv, h⟩

theorem note_no (l : Loss) (st : St) : note false l st = .ok () st := rfl

end Tomlkit
