import Verif.Proofs.TableSteps
/-!
# Reading tables, sub-tables and arrays of tables
-/
namespace Tomlkit
open _root_.Spec Tomlkit.Spec

/-- parts of the text of a document with tables -/
inductive Kind | tab | subs | elems

/-- The text of tables. `tab`: the lines and sub-tables of the table with this path. `subs`: sub-tables of the table `p`,
below the implicit tables `q`. `elems`: further elements of an array of tables. The text ends where `tail` starts. Inside
the elements of an array `[[a]]` other than the first, `av` is `a`: the parser confuses an implicit table `a` there with the
array. -/
inductive Txt : Kind → Option Str → List Str → List Str → Str → Str → PyVal → Prop
  | tab {av : Option Str} {P : List Str} {text t1 tail : Str} {L : List (List Str × PyVal)} {l1 l2 : List PyPair} (h1 : Lines text t1 L) (hn : Nest L l1)
      (h2 : Txt .subs av P [] t1 tail (.dict l2)) (hd : ∀ k ∈ l2.map PyPair.key, k ∉ l1.map PyPair.key) :
      Txt .tab av P [] text tail (.dict (l1 ++ l2))
  | none {av : Option Str} {p q : List Str} {tail : Str} : Txt .subs av p q tail tail (.dict [])
  | table {av : Option Str} {p q : List Str} {k H b cm nl t0 t1 tail : Str} {d l : List PyPair} (hH : HeadReads H (p ++ q ++ [k]))
      (hb : Spaces b) (hc : Cmt cm) (hn : Eol nl t0) (h1 : Txt .tab av (p ++ q ++ [k]) [] t0 t1 (.dict d))
      (h2 : Txt .subs av p q t1 tail (.dict l)) (hk : k ∉ l.map PyPair.key) :
      Txt .subs av p q (headOpen false ++ (H ++ (headClose false ++ (b ++ (cm ++ (nl ++ t0)))))) tail (.dict (.mk k (.dict d) :: l))
  | super {av : Option Str} {p q : List Str} {k text t1 tail : Str} {d l : List PyPair}
      (h1 : Txt .subs av p (q ++ [k]) text t1 (.dict d)) (hne : d ≠ []) (h2 : Txt .subs av p q t1 tail (.dict l))
      (hk : k ∉ l.map PyPair.key) : Txt .subs av p q text tail (.dict (.mk k (.dict d) :: l))
  | aot {av : Option Str} {p q : List Str} {k H b cm nl t0 t1 t2 tail : Str} {d l : List PyPair} {ls : List PyVal}
      (hH : HeadReads H (p ++ q ++ [k])) (hb : Spaces b) (hc : Cmt cm) (hn : Eol nl t0)
      (hq : ∀ y, q.head? = some y → av ≠ some y)
      (h1 : Txt .tab av (p ++ q ++ [k]) [] t0 t1 (.dict d))
      (h2 : Txt .elems (if p ++ q = [] then some k else av) (p ++ q ++ [k]) [] t1 t2 (.list ls))
      (h3 : Txt .subs av p q t2 tail (.dict l)) (hk : k ∉ l.map PyPair.key) :
      Txt .subs av p q (headOpen true ++ (H ++ (headClose true ++ (b ++ (cm ++ (nl ++ t0)))))) tail
        (.dict (.mk k (.list (.dict d :: ls)) :: l))
  | nil {av : Option Str} {P : List Str} {tail : Str} : Txt .elems av P [] tail tail (.list [])
  | cons {av : Option Str} {P : List Str} {H b cm nl t0 t1 tail : Str} {d : List PyPair} {ls : List PyVal}
      (hH : HeadReads H P) (hb : Spaces b) (hc : Cmt cm) (hn : Eol nl t0) (h1 : Txt .tab av P [] t0 t1 (.dict d))
      (h2 : Txt .elems av P [] t1 tail (.list ls)) :
      Txt .elems av P [] (headOpen true ++ (H ++ (headClose true ++ (b ++ (cm ++ (nl ++ t0)))))) tail (.list (.dict d :: ls))

/-! ## Where a table ends -/

/-- the table `P` ends here: the next header is no sub-table -/
def Stops (P : List Str) (tail : Str) : Prop := tail = [] ∨ ∃ b q, Peeks tail b q ∧ ¬ (P ≠ q ∧ P = q.take P.length)

/-- nothing of `P` follows -/
def Past (P : List Str) (tail : Str) : Prop := tail = [] ∨ ∃ b q, Peeks tail b q ∧ P ≠ q.take P.length

theorem Past.stops {P : List Str} {tail : Str} (h : Past P tail) : Stops P tail := by
  rcases h with h | ⟨b, q, h1, h2⟩
  · exact .inl h
  · exact .inr ⟨b, q, h1, fun h => h2 h.2⟩

theorem peeks_head (isAot : Bool) {H : Str} {q : List Str} (hH : HeadReads H q) (t : Str) :
    Peeks (headOpen isAot ++ (H ++ (headClose isAot ++ t))) isAot q := by
  cases isAot with
  | true => exact ⟨H, 93 :: t, hH, rfl⟩
  | false => exact ⟨H, t, hH, rfl⟩

def StartOf : Kind → List Str → List Str → Str → Str → PyVal → Prop
  | .subs, p, q, text, tail, .dict l => text = tail ∧ l = [] ∨ ∃ b k r, k ∈ l.map PyPair.key ∧ Peeks text b (p ++ q ++ k :: r)
  | .elems, P, _, text, tail, .list ls => text = tail ∧ ls = [] ∨ Peeks text true P
  | _, _, _, _, _, _ => True

theorem txt_start {kd : Kind} {av : Option Str} {p q : List Str} {text tail : Str} {w : PyVal} (h : Txt kd av p q text tail w) :
    StartOf kd p q text tail w := by
  induction h with
  | tab => trivial
  | none => exact .inl ⟨rfl, rfl⟩
  | @table av p q k H b cm nl t0 t1 tail d l hH hb hc hn h1 h2 hk _ _ =>
    exact .inr ⟨false, k, [], by simp, peeks_head false hH _⟩
  | @super av p q k text t1 tail d l h1 hne h2 hk ih1 _ =>
    rcases ih1 with ⟨_, h⟩ | ⟨b, k', r, _, h⟩
    · exact absurd h hne
    · exact .inr ⟨b, k, k' :: r, by simp, by simpa using h⟩
  | @aot av p q k H b cm nl t0 t1 t2 tail d l ls hH hb hc hn hq h1 h2 h3 hk _ _ _ =>
    exact .inr ⟨true, k, [], by simp, peeks_head true hH _⟩
  | nil => exact .inl ⟨rfl, rfl⟩
  | cons hH => exact .inr (peeks_head true hH _)

theorem take_prefix {P Q R : List Str} : P = (P ++ R).take P.length := by simp

theorem stops_past {P : List Str} {tail : Str} (h : Stops P tail) (k : Str) : Past (P ++ [k]) tail := by
  rcases h with h | ⟨b, q, h1, h2⟩
  · exact .inl h
  · refine .inr ⟨b, q, h1, fun h0 => h2 ⟨?_, ?_⟩⟩
    · intro hPq
      subst hPq
      have := congrArg List.length h0
      simp at this
    · have := congrArg (List.take P.length) h0
      rw [List.take_take] at this
      simpa using this

theorem subs_past {av : Option Str} {p q : List Str} {text tail : Str} {l : List PyPair} (h : Txt .subs av p q text tail (.dict l))
    (hs : Stops (p ++ q) tail) {k : Str} (hk : k ∉ l.map PyPair.key) : Past (p ++ q ++ [k]) text := by
  rcases txt_start h with ⟨rfl, _⟩ | ⟨b, k', r, hk', hp⟩
  · exact stops_past hs k
  · refine .inr ⟨b, _, hp, fun h0 => hk ?_⟩
    have e : (p ++ q ++ k' :: r).take (p ++ q ++ [k]).length = p ++ q ++ [k'] := by
      rw [List.append_cons _ k' r]
      have : (p ++ q ++ [k]).length = (p ++ q ++ [k']).length := by simp
      rw [this, List.take_left]
    rw [e] at h0
    have := List.append_cancel_left h0
    cases this
    exact hk'

theorem elems_stops {av : Option Str} {P : List Str} {text tail : Str} {ls : List PyVal} (h : Txt .elems av P [] text tail (.list ls))
    (hs : Past P tail) : Stops P text := by
  rcases txt_start h with ⟨rfl, _⟩ | hp
  · exact hs.stops
  · exact .inr ⟨true, P, hp, fun h => h.1 rfl⟩

/-! ## The stack of arrays -/

/-- what is known of the arrays of tables that are being read: their names are no longer than `m`, and one with a
single name is `av` -/
def StackOk (av : Option Str) (m : Nat) (a : List Key) : Prop :=
  (∀ K ∈ a, K.parts.length ≤ m) ∧ ∀ s, Key.single s ∈ a → av = some s.key

theorem StackOk.mono {av : Option Str} {m n : Nat} {a : List Key} (h : StackOk av m a) (hmn : m ≤ n) : StackOk av n a :=
  ⟨fun K hK => Nat.le_trans (h.1 K hK) hmn, h.2⟩

theorem StackOk.any {av : Option Str} {m : Nat} {a : List Key} (h : StackOk av m a) {k : SKey} (hk : av ≠ some k.key) :
    (a.any fun x => Key.eqv (.single k) x) = false := by
  rw [List.any_eq_false]
  intro x hx hex
  cases x with
  | single s =>
    simp only [Key.eqv, beq_iff_eq] at hex
    exact hk (by rw [hex]; exact h.2 s hx)
  | dotted => cases hex

theorem StackOk.top {av : Option Str} {m : Nat} {a : List Key} (h : StackOk av m a) {K : Key} (hK : m < K.parts.length) :
    (match a.getLast? with | some top => !Key.eqv K top | none => true) = true := by
  cases ht : a.getLast? with
  | none => rfl
  | some top =>
    dsimp only
    rw [Bool.not_eq_true']
    cases he : Key.eqv K top with
    | false => rfl
    | true =>
      have := eqv_length he
      have := h.1 top (List.mem_of_getLast? ht)
      omega

/-! ## One table -/

/-- the end of `_parse_table` -/
def finishTable (n : Nat) (h : Header) (parts : List SKey) (tb : Tbl) : P (Key × Item) := do
  let st ← getSt
  match parts with
  | k :: p :: r =>
    let outer := h.chain tb ⟨[], h.cws, h.comment, h.trail⟩
      (h.isAot && st.aot.any fun a => Key.eqv (.single k) a) k.key (p :: r)
    return (.single k, .table outer)
  | _ =>
    let key := match parts with
      | [k] => Key.single k
      | _ => h.key
    if h.isAot && (match st.aot.getLast? with | some top => !Key.eqv h.key top | none => true) then
      let a ← parseAot n tb h.key
      return (key, a)
    else return (key, .table tb)

/-- the parent of a table in the loops -/
def ParentPath : Option Key → List Str → Prop
  | none, p => p = []
  | some K, p => KeyPath K p

theorem bind_step {α β : Type} {m : P α} {f : α → P β} {st st' : St} {x : α} (h : m st = .ok x st') : (m >>= f) st = f x st' := by
  rw [P.bind_def, h]

theorem parseTable_open {parent : Option Key} {p r : List Str} (hp : ParentPath parent p) {H : Str} (hH : HeadReads H (p ++ r))
    {b cm nl t0 : Str} (hb : Spaces b) (hc : Cmt cm) (hn : Eol nl t0) (isAot : Bool) (e0 : Str) (a : List Key) (lg : List Loss) (n : Nat) :
    ∃ h parts nm e lg', h.isAot = isAot ∧ KeyPath h.key (p ++ r) ∧ parts.map SKey.key = r ∧ (∀ x ∈ parts, x.dotted = false) ∧
      (p = [] → r.length = 1 → ∃ s, h.key = .single s ∧ parts = [s]) ∧
      ∀ c e' t1 lg'' l,
      tableLoop n h.key (h.leaf nm) ⟨t0, e, a, lg'⟩ =
        .ok ((h.leaf nm).setCont c) ⟨t1, e', a, lg''⟩ → ReadCont c l →
      parseTable (n + 1) parent ⟨headOpen isAot ++ (H ++ (headClose isAot ++ (b ++ (cm ++ (nl ++ t0))))), e0, a, lg⟩ =
        finishTable n h parts ((h.leaf nm).setCont c) ⟨t1, e', a, lg''⟩ := by
  obtain ⟨h, e1, l1, h1, h2, h3, h4, h5⟩ := header_reads hH hb hc hn isAot e0 a lg
  have hdrop : ((parent.map fun k => k.parts.length).getD 0) = p.length := by
    cases parent with
    | none => cases hp; rfl
    | some K =>
      have : K.parts.map SKey.key = p := hp.keys
      simp [← this]
  have hkeys := h4.keys
  refine ⟨h, h.key.parts.drop p.length, (match (h.key.parts.drop p.length).getLast? with | some p => p.key | none => h.key.key), e1,
    l1 ++ (if (h.isAot && h.key.asString != headerPath parent (h.key.parts.drop p.length)) then [.respelled] else []), h3, h4, ?_, fun x hx => h4.plain x (List.mem_of_mem_drop hx), ?_, ?_⟩
  rotate_left 2
  · intro c e' t1 lg'' l hT hrc
    rw [parseTable, P.bind_def, h1]
    dsimp only
    rw [hdrop, P.bind_def, note_ok]
    dsimp only
    refine (bind_step hT).trans ?_
    rw [P.bind_def, setCont_cont, readCont_validate hrc, lift_ok']
    rfl
  · rw [List.map_drop, hkeys]; simp
  · intro hp0 hr1
    obtain ⟨s, hs⟩ := h4.shape.2 (by simp [hp0, hr1])
    exact ⟨s, hs, by rw [hs, hp0]; rfl⟩

/-- the result is a piece to append -/
theorem finish_piece (n : Nat) (h : Header) {parts : List SKey} {r : List Str} {k : Str} (tb : Tbl)
    (hparts : parts.map SKey.key = r ++ [k]) (hd : ∀ x ∈ parts, x.dotted = false) (st : St)
    (hq : h.isAot = true → r ≠ [] ∧ ∀ x, r.head? = some x.key → (st.aot.any fun a => Key.eqv (.single x) a) = false) :
    ∃ sk item leafnm rest, finishTable n h parts tb st = .ok (.single sk, item) st ∧ sk.key :: rest = r ++ [k] ∧ sk.dotted = false ∧
      (∀ tb, item = .table tb → r ≠ [] → tb.isAot = false) ∧ (r = [] → item = .table tb) ∧
      IsPiece (if h.isAot then mkAoT [tb] (some leafnm) true else .table tb) rest item := by
  rcases parts with _ | ⟨x, _ | ⟨y, parts⟩⟩
  · exact absurd (congrArg List.length hparts) (by simp)
  · have hr : r = [] := by
      have := congrArg List.length hparts
      simp only [List.map_cons, List.map_nil, List.length_cons, List.length_nil, List.length_append] at this
      exact List.length_eq_zero_iff.1 (by omega)
    have hA : h.isAot = false := by
      cases hh : h.isAot with
      | false => rfl
      | true => exact absurd hr (hq hh).1
    subst hr
    refine ⟨x, .table tb, [], [], ?_, ?_, hd x (by simp), (fun _ _ h => absurd rfl h), fun _ => rfl, ?_⟩
    · unfold finishTable
      rw [getSt_bind]
      dsimp only
      rw [hA]
      rfl
    · simpa using hparts
    · rw [hA]; exact .leaf
  · obtain ⟨leafnm, hpc⟩ := chain_piece h tb (y :: parts) ⟨[], h.cws, h.comment, h.trail⟩ x.key (by simp)
      (fun z hz => hd z (List.mem_cons_of_mem _ hz))
    have hr : ∃ r', r = x.key :: r' := by
      rcases r with _ | ⟨r1, r'⟩
      · exact absurd (congrArg List.length hparts) (by simp)
      · simp only [List.map_cons, List.cons_append, List.cons.injEq] at hparts
        exact ⟨r', by rw [hparts.1]⟩
    obtain ⟨r', hr⟩ := hr
    have hA : (h.isAot && st.aot.any fun a => Key.eqv (.single x) a) = false := by
      cases hh : h.isAot with
      | false => rfl
      | true => rw [(hq hh).2 x (by rw [hr]; rfl)]; rfl
    refine ⟨x, _, leafnm, (y :: parts).map SKey.key, ?_, by rw [← hparts]; rfl, hd x (by simp), fun tb' h0 _ => ?_, fun h0 => ?_, hpc⟩
    · unfold finishTable
      rw [getSt_bind]
      dsimp only
      rw [hA]
      rfl
    · cases h0
      cases parts <;> rfl
    · rw [hr] at h0; cases h0

end Tomlkit
