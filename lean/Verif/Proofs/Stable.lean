import Verif.Proofs.LockDoc
/-!
# More fuel changes nothing
-/
namespace Tomlkit
open _root_.Spec Tomlkit.Spec

/-- the second result is the first, unless that ran out of fuel -/
def Upto {α : Type} (x y : Except Err α) : Prop := x = .error .fuel ∨ y = x

theorem Upto.refl {α : Type} (x : Except Err α) : Upto x x := .inr rfl

theorem Upto.map {α β : Type} {x y : Except Err α} (h : Upto x y) (f : α → β) : Upto (x.map f) (y.map f) := by
  rcases h with rfl | rfl
  · exact .inl rfl
  · exact .refl _

theorem Upto.fold {α β : Type} {f g : β → α → Except Err β} (h : ∀ b a, Upto (f b a) (g b a)) (l : List α) : ∀ b, Upto (foldE f b l) (foldE g b l) := by
  induction l with
  | nil => intro b; exact .refl _
  | cons a l ih =>
    intro b
    rw [foldE, foldE]
    rcases h b a with h | h
    · exact .inl (by rw [h])
    · rw [h]
      rcases f b a with e | b'
      · exact .refl _
      · exact ih b'

theorem Upto.ok {α : Type} {x y : Except Err α} (h : Upto x y) {a : α} (hx : x = .ok a) : y = .ok a := by
  rcases h with h | h
  · rw [h] at hx; cases hx
  · rw [h, hx]

theorem append_stable : ∀ n m, n ≤ m →
    (∀ al val c key v, Upto (Cont.append1 n al val c key v) (Cont.append1 m al val c key v)) ∧
    (∀ c k, Upto (Cont.has n c k) (Cont.has m c k)) ∧
    (∀ c is, Upto (Cont.mkProxy n c is) (Cont.mkProxy m c is)) ∧
    (∀ al t key v, Upto (Tbl.append1 n al t key v) (Tbl.append1 m al t key v)) := by
  intro n
  induction n with
  | zero =>
    intro m _
    refine ⟨fun _ _ _ _ _ => .inl ?_, fun _ _ => .inl ?_, fun _ _ => .inl ?_, fun _ _ _ _ => .inl ?_⟩
    · rw [Cont.append1]
    · rw [Cont.has]
    · rw [Cont.mkProxy]
    · rw [Tbl.append1]
  | succ n ih =>
    intro m hm
    rcases m with _ | m
    · omega
    obtain ⟨h1, h2, h3, h4⟩ := ih m (by omega)
    refine ⟨fun al val c key v => ?_, fun c k => ?_, fun c is => ?_, fun al t key v => ?_⟩
    · rw [Cont.append1, Cont.append1]
      split
      · exact .refl _
      rcases c.prepare key v with e | w
      · exact .refl _
      dsimp only
      rcases key with _ | k
      · exact .refl _
      dsimp only
      rcases h2 c k.key with h | h <;> rw [h]
      · exact .inl rfl
      rcases Cont.has n c k.key with e | b
      · exact .refl _
      rcases b with _ | _
      · exact .refl _
      dsimp only
      rcases c.lastEntry k.key with _ | ⟨i, cur⟩
      · exact .refl _
      dsimp only
      rcases w with _ | _ | _ | _ | _ | _ | _ | _ | _ | _ | _ | tb | ⟨ts, t, nm, p⟩ | _ <;> try exact .refl _
      dsimp only
      split
      · exact .refl _
      split
      · exact .refl _
      split
      · rename_i ct hct
        split
        · split
          · generalize (if (k.dotted || isDottedKey cur.key) = true then some true else _) = z
            rcases z with _ | _ | _
            · exact .refl _
            · dsimp only
              have := Upto.fold (f := fun (p : Tbl × Bool) (e : Entry) => (Tbl.append1 n al p.1 e.key e.v).map fun q => (q.1, p.2 || q.2))
                (g := fun (p : Tbl × Bool) (e : Entry) => (Tbl.append1 m al p.1 e.key e.v).map fun q => (q.1, p.2 || q.2))
                (fun b a => (h4 al b.1 a.key a.v).map _) tb.cont.body (ct.deepCopy, false)
              rcases this with h | h <;> rw [h]
              · exact .inl rfl
              · exact .refl _
            · dsimp only
              generalize (if _ < c.body.length then c.insertAt _ k (Item.table tb) else c.rawAppend (some k) (Item.table tb)) = z
              rcases z with e | c'
              · exact .refl _
              dsimp only
              rcases val with _ | _
              · exact .refl _
              · simp only [if_true]
                rcases h2 c' k.key with h | h <;> rw [h]
                · exact .inl rfl
                · exact .refl _
          · exact .refl _
        · exact .refl _
      · exact .refl _
    · rw [Cont.has, Cont.has]
      split
      · exact .refl _
      · exact .refl _
      · exact (h3 c _).map _
    · rw [Cont.mkProxy, Cont.mkProxy]
      have := Upto.fold (f := fun p (e : Entry) => (Cont.append1 n true false p e.key e.v).map Prod.fst)
        (g := fun p (e : Entry) => (Cont.append1 m true false p e.key e.v).map Prod.fst)
        (fun b a => (h1 true false b a.key a.v).map _) ((tablesAt c.body is).flatMap fun t => t.cont.body) (Cont.empty true)
      rcases this with h | h <;> rw [h]
      · exact .inl rfl
      generalize foldE (fun p (e : Entry) => (Cont.append1 n true false p e.key e.v).map Prod.fst) (Cont.empty true)
        ((tablesAt c.body is).flatMap fun t => t.cont.body) = z
      rcases z with e | p
      · exact .refl _
      dsimp only
      have := Upto.fold (f := fun (_ : Unit) k => (Cont.has n p k).map fun _ => ()) (g := fun (_ : Unit) k => (Cont.has m p k).map fun _ => ())
        (fun b a => (h2 p a).map _) (p.map.map (·.1)) ()
      rcases this with h | h <;> rw [h]
      · exact .inl rfl
      · exact .refl _
    · rw [tbl_eq, tbl_eq]
      rcases h1 al true t.cont key v with h | h <;> rw [h]
      · exact .inl rfl
      rcases Cont.append1 n al true t.cont key v with e | ⟨c, mv⟩
      · exact .refl _
      dsimp only
      rcases key with _ | k
      · exact .refl _
      unfold hasKey
      dsimp only
      rcases h2 c k.key with h | h <;> rw [h]
      · exact .inl rfl
      · exact .refl _

/-! ### parsers -/

/-- the second parser does the same as the first, unless that runs out of fuel -/
def Steady {α : Type} (p q : P α) : Prop := ∀ st, (∃ s, p st = .err .fuel s) ∨ q st = p st

theorem Steady.refl {α : Type} (p : P α) : Steady p p := fun _ => .inr rfl

theorem Steady.bind {α β : Type} {p q : P α} {f g : α → P β} (h : Steady p q) (hf : ∀ a, Steady (f a) (g a)) : Steady (p >>= f) (q >>= g) := by
  intro st
  rw [Tomlkit.P.bind_def, Tomlkit.P.bind_def]
  rcases h st with ⟨s, h⟩ | h
  · exact .inl ⟨s, by rw [h]⟩
  · rw [h]
    rcases p st with ⟨a, s⟩ | ⟨e, s⟩
    · exact hf a s
    · exact .inr rfl

theorem Steady.step {α β : Type} (p : P α) {f g : α → P β} (hf : ∀ a, Steady (f a) (g a)) : Steady (p >>= f) (p >>= g) := (Steady.refl p).bind hf

theorem Steady.ite {α : Type} (c : Prop) [Decidable c] {p q p' q' : P α} (h : Steady p q) (h' : Steady p' q') :
    Steady (if c then p else p') (if c then q else q') := by
  split
  · exact h
  · exact h'

theorem tables_steady : ∀ n m, n ≤ m →
    (∀ parent, Steady (parseTable n parent) (parseTable m parent)) ∧
    (∀ full tb, Steady (tableLoop n full tb) (tableLoop m full tb)) ∧
    (∀ full tb, Steady (childLoop n full tb) (childLoop m full tb)) ∧
    (∀ first name, Steady (parseAot n first name) (parseAot m first name)) ∧
    (∀ name ts, Steady (aotLoop n name ts) (aotLoop m name ts)) := by
  intro n
  induction n with
  | zero =>
    intro m _
    refine ⟨fun _ st => .inl ⟨st, ?_⟩, fun _ _ st => .inl ⟨st, ?_⟩, fun _ _ st => .inl ⟨st, ?_⟩, fun _ _ st => .inl ⟨st, ?_⟩, fun _ _ st => .inl ⟨st, ?_⟩⟩
    · rw [parseTable]; rfl
    · rw [tableLoop]; rfl
    · rw [childLoop]; rfl
    · rw [parseAot]; rfl
    · rw [aotLoop]; rfl
  | succ n ih =>
    intro m hm
    rcases m with _ | m
    · omega
    obtain ⟨h1, h2, h3, h4, h5⟩ := ih m (by omega)
    refine ⟨fun parent => ?_, fun full tb => ?_, fun full tb => ?_, fun first name => ?_, fun name ts => ?_⟩
    · rw [parseTable, parseTable]
      refine .step _ fun h => .step _ fun _ => (h2 _ _).bind fun tb => .step _ fun _ => .step _ fun st => ?_
      dsimp only
      split
      · exact .refl _
      · exact .ite _ ((h4 _ _).bind fun a => .refl _) (.refl _)
    · rw [tableLoop, tableLoop]
      refine .step _ fun st => .ite _ (.refl _) (.step _ fun r => ?_)
      rcases r with _ | ⟨k, v⟩
      · exact .step _ fun st => .ite _ (h3 _ _) (.refl _)
      · dsimp only
        split
        · exact h2 _ _
        · exact .step _ fun r => .step _ fun _ => h2 _ _
    · rw [childLoop, childLoop]
      refine .step _ fun st => .ite _ (.refl _) (.step _ fun r => ?_)
      exact .ite _ ((h1 _).bind fun kv => .step _ fun r => .step _ fun _ => h3 _ _) (.refl _)
    · rw [parseAot, parseAot]
      exact .step _ fun _ => (h5 _ _).bind fun ts => .refl _
    · rw [aotLoop, aotLoop]
      refine .step _ fun st => .ite _ (.refl _) (.step _ fun r => ?_)
      refine .ite _ ((h1 _).bind fun kv => ?_) (.refl _)
      rcases kv with ⟨k, v⟩
      rcases v with _ | _ | _ | _ | _ | _ | _ | _ | _ | _ | _ | tb | _ | _ <;> first | exact .refl _ | exact h5 _ _

end Tomlkit
