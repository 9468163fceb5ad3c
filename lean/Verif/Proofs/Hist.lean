import Verif.Proofs.CalmHead
import Verif.Proofs.AppendErr
/-!
# Containers that remember where their tables come from

The tables of a container that is being read are in the order of their headers, and another header only reaches the last of them, when
the headers of the text are grouped.
-/
namespace Tomlkit
open _root_.Spec Tomlkit.Spec

/-- headers by the position of their lines -/
def HeadRel := Nat → Bool → List (Str × Str) → Prop

/-- names are spelled in one way, and headers of one table stand together -/
structure HeadsFit (T : HeadRel) : Prop where
  spelling : ∀ n aot P n' aot' P', T n aot P → T n' aot' P' → 2 ≤ P.length ∨ aot = true →
    ∀ q ∈ P, ∀ q' ∈ P', q.2 = q'.2 → q.1 = q'.1
  grouped : ∀ n1 a1 P1 n2 a2 P2 n3 a3 P3, n1 < n2 → n2 < n3 → T n1 a1 P1 → T n2 a2 P2 → T n3 a3 P3 →
    a2 = true ∨ (a1 = true ∧ a3 = true ∧ names P1 = names P3) → ∀ p, p <+: names P1 → p <+: names P3 → p <+: names P2

/-- a header the code sees: spelled in a known way, or a plain one in a text without arrays of tables -/
def Hd (T : HeadRel) (n : Nat) (aot : Bool) (P : List (Str × Str)) : Prop :=
  T n aot P ∨ (aot = false ∧ (∀ n P, ¬ T n true P) ∧ P.length = 1)

theorem Hd.aot {T : HeadRel} {n : Nat} {P : List (Str × Str)} (h : Hd T n true P) : T n true P := by
  rcases h with h | ⟨h, _⟩
  · exact h
  · cases h

theorem Hd.long {T : HeadRel} {n : Nat} {a : Bool} {P : List (Str × Str)} (h : Hd T n a P) (hl : 2 ≤ P.length) : T n a P := by
  rcases h with h | ⟨_, _, h⟩
  · exact h
  · omega

theorem Hd.of_aot {T : HeadRel} {n n' : Nat} {a : Bool} {P P' : List (Str × Str)} (h : Hd T n a P) (h' : T n' true P') : T n a P := by
  rcases h with h | ⟨_, h, _⟩
  · exact h
  · exact absurd h' (h _ _)

/-- an entry that comes from a line -/
def LineEntry (e : Entry) : Prop :=
  (∀ k, e.key = some k → k.dotted = false → e.v.isTableLike = false) ∧ ∀ ts t nm p, e.v ≠ .aot ts t nm p

/-- an entry that comes from a header -/
def HeadEntry (T : HeadRel) (p : List Str) (m : Nat) (x : Entry × Nat × Bool × List (Str × Str)) : Prop :=
  x.2.1 < m ∧ Hd T x.2.1 x.2.2.1 x.2.2.2 ∧ ∃ k, x.1.key = some k ∧ k.dotted = false ∧ (k.orig, k.key) ∈ x.2.2.2 ∧
    p ++ [k.key] <+: names x.2.2.2 ∧
    ((∃ tb b, x.1.v = .table tb ∧ tb.superFlag = some b ∧ (b = true → 2 ≤ x.2.2.2.length)) ∨
      ∃ ts t nm b, x.1.v = .aot ts t nm b ∧ t.indent = [] ∧ x.2.2.1 = true ∧ names x.2.2.2 = p ++ [k.key])

inductive Hist (T : HeadRel) : List Str → Nat → Cont → Prop
  | mk {p : List Str} {m : Nat} {c : Cont} (lines : List Entry) (es : List (Entry × Nat × Bool × List (Str × Str)))
      (body : c.body = lines ++ es.map Prod.fst) (parsed : c.parsed = true) (hlines : ∀ e ∈ lines, LineEntry e)
      (hes : ∀ x ∈ es, HeadEntry T p m x) (hinc : (es.map fun x => x.2.1).Pairwise (· < ·))
      (hkeys : ∀ x, es.getLast? = some x → x.1.v.isTable = true → c.tableKeys.getLast? = x.1.name)
      (hind : ∀ x tb, es.getLast? = some x → x.1.v = .table tb → tb.superFlag = some true → tb.trivia.indent = [])
      (hrec : ∀ x tb k, es.getLast? = some x → x.1.key = some k → x.1.v = .table tb → tb.superFlag = some true → Hist T (p ++ [k.key]) m tb.cont) :
      Hist T p m c

theorem HeadEntry.mono {T : HeadRel} {p : List Str} {m m' : Nat} (hm : m ≤ m') {x : Entry × Nat × Bool × List (Str × Str)}
    (h : HeadEntry T p m x) : HeadEntry T p m' x := ⟨Nat.lt_of_lt_of_le h.1 hm, h.2⟩

theorem Hist.mono {T : HeadRel} {p : List Str} {m m' : Nat} (hm : m ≤ m') {c : Cont} (h : Hist T p m c) : Hist T p m' c := by
  induction h with
  | mk lines es body parsed hlines hes hinc hkeys hind hrec ih =>
    exact .mk lines es body parsed hlines (fun x hx => (hes x hx).mono hm) hinc hkeys hind
      fun x tb k h1 h2 h3 h4 => ih x tb k h1 h2 h3 h4 hm

theorem Hist.isParsed {T : HeadRel} {p : List Str} {m : Nat} {c : Cont} (h : Hist T p m c) : c.parsed = true := by
  cases h with
  | mk _ _ _ h => exact h

/-- a container that only has lines -/
theorem Hist.lines {T : HeadRel} {p : List Str} {c : Cont} (hp : c.parsed = true) (h : ∀ e ∈ c.body, LineEntry e) (m : Nat) : Hist T p m c :=
  .mk c.body [] (by simp) hp h (by simp) (by simp) (by simp) (by simp) (by simp)

/-! ### deep copies -/

theorem Entry.deepCopy_v (e : Entry) : e.deepCopy.v = e.v.deepCopy := by cases e; rfl
theorem Entry.deepCopy_k (e : Entry) : e.deepCopy.key = e.key := by cases e; rfl
theorem deepCopyEntries_map (b : List Entry) : b.deepCopyEntries = b.map Entry.deepCopy := by
  induction b with
  | nil => rfl
  | cons e b ih => simp [List.deepCopyEntries, ih]

theorem deepCopy_table {v : Item} {tb : Tbl} (h : v.deepCopy = .table tb) : ∃ tb', v = .table tb' ∧ tb = tb'.deepCopy := by
  cases v with
  | table t => cases h; exact ⟨t, rfl, rfl⟩
  | _ => cases h

theorem Hist.deepCopy {T : HeadRel} {p : List Str} {m : Nat} {c : Cont} (h : Hist T p m c) : Hist T p m c.deepCopy := by
  induction h with
  | @mk p m c lines es body parsed hlines hes hinc hkeys hind hrec ih =>
    have hb : c.deepCopy.body = lines.map Entry.deepCopy ++ (es.map fun x => (x.1.deepCopy, x.2)).map Prod.fst := by
      cases c with
      | mk b m' d pp tk =>
        show b.deepCopyEntries = _
        have body : b = lines ++ es.map Prod.fst := body
        rw [deepCopyEntries_map, body, List.map_append]
        simp
    have hpd : c.deepCopy.parsed = true := by cases c; exact parsed
    have htk : c.deepCopy.tableKeys = c.tableKeys := by cases c; rfl
    have hlast : ∀ y, (es.map fun x => (x.1.deepCopy, x.2)).getLast? = some y → ∃ x, es.getLast? = some x ∧ y = (x.1.deepCopy, x.2) := by
      intro y hy
      rw [List.getLast?_map] at hy
      rcases hx : es.getLast? with _ | x <;> rw [hx] at hy
      · cases hy
      · cases hy; exact ⟨x, rfl, rfl⟩
    refine .mk _ _ hb hpd ?_ ?_ ?_ ?_ ?_ ?_
    · intro e he
      obtain ⟨e0, h0, rfl⟩ := List.mem_map.1 he
      obtain ⟨h1, h2⟩ := hlines e0 h0
      refine ⟨fun k hk hd => ?_, fun ts t nm p hv => ?_⟩
      · rw [Entry.deepCopy_k] at hk
        have := h1 k hk hd
        rw [Entry.deepCopy_v]
        cases hv : e0.v <;> rw [hv] at this <;> first | rfl | cases this
      · rw [Entry.deepCopy_v] at hv
        cases hv0 : e0.v <;> rw [hv0] at hv <;> cases hv
        exact h2 _ _ _ _ hv0
    · intro y hy
      obtain ⟨x, hx, rfl⟩ := List.mem_map.1 hy
      obtain ⟨h1, h2, k, h3, h4, h5, h6, h7⟩ := hes x hx
      refine ⟨h1, h2, k, by rw [Entry.deepCopy_k]; exact h3, h4, h5, h6, ?_⟩
      rcases h7 with ⟨tb, b, h7, h8, h9⟩ | ⟨ts, t, nm, b, h7, h8, h9⟩
      · left
        exact ⟨tb.deepCopy, b, by rw [Entry.deepCopy_v, h7]; rfl, by rw [← h8]; cases tb; rfl, h9⟩
      · right
        rw [Entry.deepCopy_v, h7]
        exact ⟨_, _, _, _, rfl, rfl, h9⟩
    · rw [List.map_map]; exact hinc
    · intro y hy ht
      obtain ⟨x, hx, rfl⟩ := hlast y hy
      rw [Entry.deepCopy_v, Item.isTable_deepCopy] at ht
      rw [htk, hkeys x hx ht]
      show x.1.name = x.1.deepCopy.name
      unfold Entry.name
      rw [Entry.deepCopy_k]
    · intro y tb hy hv hs
      obtain ⟨x, hx, rfl⟩ := hlast y hy
      rw [Entry.deepCopy_v] at hv
      obtain ⟨tb', hv1, rfl⟩ := deepCopy_table hv
      have := hind x tb' hx hv1 (by rw [← hs]; cases tb'; rfl)
      rw [← this]; cases tb'; rfl
    · intro y tb k hy hk hv hs
      obtain ⟨x, hx, rfl⟩ := hlast y hy
      rw [Entry.deepCopy_v] at hv
      rw [Entry.deepCopy_k] at hk
      obtain ⟨tb', hv1, rfl⟩ := deepCopy_table hv
      have := ih x tb' k hx hk hv1 (by rw [← hs]; cases tb'; rfl)
      cases tb'; exact this

/-! ### what a header opens -/

/-- the entry a header leads to, `r` is the path below the container -/
inductive Piece (aot : Bool) : List (Str × Str) → SKey → Item → Prop
  | leaf (k : SKey) (tb : Tbl) (hs : tb.superFlag = some false) (ha : tb.isAot = false) (hn : tb.name.isSome = true) (h0 : aot = false)
      (hd : k.dotted = false) : Piece aot [(k.orig, k.key)] k (.table tb)
  | arr (k : SKey) (ts t nm b) (hi : t.indent = []) (h0 : aot = true) (hd : k.dotted = false) : Piece aot [(k.orig, k.key)] k (.aot ts t nm b)
  | chain (k : SKey) (tb : Tbl) (k2 v2 r) (hs : tb.superFlag = some true) (ha : tb.isAot = false) (hn : tb.name.isSome = true)
      (hi : tb.trivia.indent = []) (hd : k.dotted = false) (hb : tb.cont.body = [.mk (some k2) v2]) (hp : tb.cont.parsed = true)
      (ht : tb.cont.tableKeys = if v2.isTable then [k2.key] else []) (h : Piece aot r k2 v2) :
      Piece aot ((k.orig, k.key) :: r) k (.table tb)

theorem Piece.ne {aot : Bool} {r : List (Str × Str)} {k : SKey} {v : Item} (h : Piece aot r k v) : r ≠ [] := by cases h <;> simp

theorem Piece.head {aot : Bool} {r : List (Str × Str)} {k : SKey} {v : Item} (h : Piece aot r k v) :
    ∃ r', r = (k.orig, k.key) :: r' ∧ k.dotted = false := by
  cases h with
  | leaf k tb hs ha hn h0 hd => exact ⟨_, rfl, hd⟩
  | arr k ts t nm b hi h0 hd => exact ⟨_, rfl, hd⟩
  | chain k tb k2 v2 r hs ha hn hi hd => exact ⟨_, rfl, hd⟩

theorem Piece.entry {aot : Bool} {r : List (Str × Str)} {k : SKey} {v : Item} (h : Piece aot r k v) {T : HeadRel} {n : Nat}
    {P P0 : List (Str × Str)} (hH : Hd T n aot P) (hP : P = P0 ++ r) {m : Nat} (hm : n < m) :
    HeadEntry T (names P0) m (.mk (some k) v, n, aot, P) := by
  obtain ⟨r', hr, hd⟩ := h.head
  refine ⟨hm, hH, k, rfl, hd, ?_, ?_, ?_⟩
  · show _ ∈ P
    rw [hP, hr]; simp
  · show _ <+: names P
    rw [hP, hr]
    refine ⟨names r', ?_⟩
    simp [names]
  · cases h with
    | leaf k tb hs ha hn h0 hd => exact .inl ⟨tb, false, rfl, hs, fun h => by cases h⟩
    | arr k ts t nm b hi h0 hd => exact .inr ⟨ts, t, nm, b, rfl, hi, h0, by show names P = _; rw [hP]; simp [names]⟩
    | chain k tb k2 v2 r hs ha hn hi hd hb hp ht h =>
      refine .inl ⟨tb, true, rfl, hs, fun _ => ?_⟩
      show 2 ≤ P.length
      have := List.length_pos_iff.2 h.ne
      rw [hP]; simp; omega

/-- the implicit table of a header -/
theorem Piece.hist {aot : Bool} {r : List (Str × Str)} {k : SKey} {v : Item} (h : Piece aot r k v) {T : HeadRel} {n : Nat} :
    ∀ {P P0 : List (Str × Str)}, Hd T n aot P → P = P0 ++ r → ∀ {m : Nat}, n < m → ∀ tb, v = .table tb → tb.superFlag = some true →
    Hist T (names P0 ++ [k.key]) m tb.cont := by
  induction h with
  | leaf k tb hs ha hn h0 hd => intro P P0 _ _ m _ tb' hv h; cases hv; rw [hs] at h; cases h
  | arr k ts t nm b hi h0 hd => intro P P0 _ _ m _ tb' hv h; cases hv
  | chain k tb k2 v2 r hs ha hn hi hd hb hp ht h ih =>
    intro P P0 hH hP m hm tb' hv h'
    cases hv
    have hP' : P = (P0 ++ [(k.orig, k.key)]) ++ r := by rw [hP]; simp
    have hnm : names (P0 ++ [(k.orig, k.key)]) = names P0 ++ [k.key] := by simp [names]
    have hE := h.entry hH hP' hm
    rw [hnm] at hE
    refine .mk [] [(.mk (some k2) v2, n, aot, P)] (by rw [hb]; rfl) hp (by simp) ?_ (by simp) ?_ ?_ ?_
    · intro x hx
      rw [List.mem_singleton] at hx
      subst hx; exact hE
    · intro x hx hv
      cases hx
      have hv : v2.isTable = true := hv
      rw [ht, if_pos hv]; rfl
    · intro x tb1 hx hv hs1
      cases hx
      have hv : v2 = .table tb1 := hv
      subst hv
      cases h with
      | leaf k tb hs ha hn h0 hd => rw [hs] at hs1; cases hs1
      | chain k tb k2 v2 r hs ha hn hi => exact hi
    · intro x tb1 k1 hx hk hv hs1
      cases hx
      cases hk
      have := ih hH hP' hm tb1 hv hs1
      rwa [hnm] at this

/-! ### appending -/

theorem lastEntry_last {c : Cont} (h : PW c) {k : Str} {i : Nat} {cur : Entry} (hl : c.lastEntry k = some (i, cur)) :
    c.body[i]? = some cur ∧ cur.name = some k ∧ ∀ j e, i < j → c.body[j]? = some e → e.name ≠ some k := by
  obtain ⟨h1, is, h2, h3⟩ := lastEntry_get hl
  have hpos := h.wf.idx.pos
  have hmem : i ∈ is := List.mem_of_getLast? h3
  refine ⟨h1, ?_, fun j e hij hj hn => ?_⟩
  · have := (hpos k i).2 ⟨is, h2, hmem⟩
    simp only [List.map_map, List.getElem?_map, h1, Option.map_some] at this
    simpa [Entry.shape] using this
  · have : ((c.body.map Entry.shape).map (·.1))[j]? = some (some k) := by
      simp only [List.map_map, List.getElem?_map, hj, Option.map_some]
      simp [Entry.shape, hn]
    obtain ⟨is', h4, h5⟩ := (hpos k j).1 this
    rw [h2] at h4
    cases h4
    have hs := h.sorted k is h2
    obtain ⟨l, rfl⟩ : ∃ l, is = l ++ [i] := by
      rw [List.getLast?_eq_some_iff] at h3
      exact h3
    rcases List.mem_append.1 h5 with h5 | h5
    · have := (List.pairwise_append.1 hs).2.2 j h5 i (by simp)
      omega
    · rw [List.mem_singleton] at h5; omega

/-- a new entry -/
theorem Hist.snoc {T : HeadRel} {p : List Str} {m : Nat} {c : Cont} (h : Hist T p m c) {aot : Bool} {r : List (Str × Str)} {k : SKey} {v : Item}
    (hpc : Piece aot r k v) {n : Nat} {P P0 : List (Str × Str)} (hH : Hd T n aot P) (hP : P = P0 ++ r) (hp : names P0 = p) (hm : m ≤ n)
    {c' : Cont} (hr : c.rawAppend (some k) v = .ok c') : Hist T p (n + 1) c' := by
  cases h with
  | mk lines es body parsed hlines hes hinc hkeys hind hrec =>
    obtain ⟨f1, f2⟩ := rawAppend_fields hr
    have hE := hpc.entry hH hP (Nat.lt_succ_self n)
    rw [hp] at hE
    refine .mk lines (es ++ [(.mk (some k) v, n, aot, P)]) ?_ (f1.trans parsed) hlines ?_ ?_ ?_ ?_ ?_
    · rw [rawAppend_body hr, body]; simp
    · intro x hx
      rcases List.mem_append.1 hx with hx | hx
      · exact (hes x hx).mono (by omega)
      · rw [List.mem_singleton] at hx; subst hx; exact hE
    · rw [List.map_append, List.pairwise_append]
      refine ⟨hinc, by simp, ?_⟩
      intro a ha b hb
      obtain ⟨x, hx, rfl⟩ := List.mem_map.1 ha
      simp only [List.map_cons, List.map_nil, List.mem_singleton] at hb
      subst hb
      have := (hes x hx).1
      omega
    · intro x hx hv
      simp only [List.getLast?_append, List.getLast?_singleton, Option.some_or, Option.some.injEq] at hx
      subst hx
      have hv : v.isTable = true := hv
      rw [f2]
      simp [hv, Entry.name]
    · intro x tb hx hv hs
      simp only [List.getLast?_append, List.getLast?_singleton, Option.some_or, Option.some.injEq] at hx
      subst hx
      have hv : v = .table tb := hv
      subst hv
      cases hpc with
      | leaf k tb hs0 => rw [hs0] at hs; cases hs
      | chain k tb k2 v2 r _ _ _ hi => exact hi
    · intro x tb k1 hx hk hv hs
      simp only [List.getLast?_append, List.getLast?_singleton, Option.some_or, Option.some.injEq] at hx
      subst hx
      cases hk
      have := hpc.hist hH hP (Nat.lt_succ_self n) tb hv hs
      rwa [hp] at this

/-- the last entry gets another value -/
theorem Hist.setLast {T : HeadRel} {p : List Str} {m m' : Nat} (hm : m ≤ m') {c : Cont} {lines : List Entry} {es : List (Entry × Nat × Bool × List (Str × Str))}
    {x : Entry × Nat × Bool × List (Str × Str)} (body : c.body = lines ++ (es ++ [x]).map Prod.fst) (parsed : c.parsed = true)
    (hlines : ∀ e ∈ lines, LineEntry e) (hes : ∀ y ∈ es ++ [x], HeadEntry T p m y) (hinc : ((es ++ [x]).map fun x => x.2.1).Pairwise (· < ·))
    (hkeys : x.1.v.isTable = true → c.tableKeys.getLast? = x.1.name) {i : Nat} (hi : i + 1 = c.body.length) {v : Item}
    (hE : HeadEntry T p m' (.mk x.1.key v, x.2)) (hv : v.isTable = true → x.1.v.isTable = true)
    (h1 : ∀ tb, v = .table tb → tb.superFlag = some true → tb.trivia.indent = [])
    (h2 : ∀ tb k, x.1.key = some k → v = .table tb → tb.superFlag = some true → Hist T (p ++ [k.key]) m' tb.cont) :
    Hist T p m' (c.setAt i x.1 v) := by
  refine .mk lines (es ++ [(.mk x.1.key v, x.2)]) ?_ parsed hlines ?_ ?_ ?_ ?_ ?_
  · show c.body.set i _ = _
    have hlen : i = (lines ++ es.map Prod.fst).length := by
      have := congrArg List.length body
      simp at this ⊢; omega
    rw [body, List.map_append, ← List.append_assoc, hlen, List.map_cons, List.map_nil, List.set_append_right _ _ (Nat.le_refl _)]
    simp
  · intro y hy
    rcases List.mem_append.1 hy with hy | hy
    · exact (hes y (List.mem_append_left _ hy)).mono hm
    · rw [List.mem_singleton] at hy; subst hy; exact hE
  · rw [List.map_append] at hinc ⊢; exact hinc
  · intro y hy ht
    simp only [List.getLast?_append, List.getLast?_singleton, Option.some_or, Option.some.injEq] at hy
    subst hy
    exact hkeys (hv ht)
  · intro y tb hy
    simp only [List.getLast?_append, List.getLast?_singleton, Option.some_or, Option.some.injEq] at hy
    subst hy
    exact h1 tb
  · intro y tb k hy
    simp only [List.getLast?_append, List.getLast?_singleton, Option.some_or, Option.some.injEq] at hy
    subst hy
    exact h2 tb k

theorem Piece.prepare {aot : Bool} {r : List (Str × Str)} {k : SKey} {v v' : Item} (h : Piece aot r k v) {c : Cont} (hc : c.parsed = true)
    (hp0 : c.prepare (some k) v = .ok v') : Piece aot r k v' ∧ (∀ tb, v = .table tb → v' = v) ∧ ∀ ts t nm b, v = .aot ts t nm b → ∀ tb, v' ≠ .table tb := by
  have := prepare_parsed hc hp0
  cases h with
  | leaf k tb hs ha hn h0 hd =>
    rw [if_neg] at this
    · subst this; exact ⟨.leaf k tb hs ha hn h0 hd, fun _ _ => rfl, fun _ _ _ _ h => by cases h⟩
    · show ¬ (true && tb.name.isNone) = true
      cases hnm : tb.name
      · rw [hnm] at hn; cases hn
      · simp
  | chain k tb k2 v2 r hs ha hn hi hd hb hp ht h =>
    rw [if_neg] at this
    · subst this; exact ⟨.chain k tb k2 v2 r hs ha hn hi hd hb hp ht h, fun _ _ => rfl, fun _ _ _ _ h => by cases h⟩
    · show ¬ (true && tb.name.isNone) = true
      cases hnm : tb.name
      · rw [hnm] at hn; cases hn
      · simp
  | arr k ts t nm b hi h0 hd =>
    refine ⟨?_, (fun tb h => by cases h), fun ts' t' nm' b' h => ?_⟩
    · split at this
      · subst this; exact .arr k ts t _ b hi h0 hd
      · subst this; exact .arr k ts t _ b hi h0 hd
    · intro tb h
      split at this
      · rw [this] at h; cases h
      · rw [this] at h; cases h

theorem histTail_raw {c : Cont} (hc : c.parsed = true) (k : SKey) (v : Item) : c.appendTail (some k) v = c.rawAppend (some k) v := by
  unfold Cont.appendTail
  simp [hc]

/-- The entry a header leads to, when there is one to be merged with, is the last. -/
theorem Hist.at_last {T : HeadRel} (hC : HeadsFit T) {p : List Str} {m : Nat} {c : Cont} {lines : List Entry}
    {es : List (Entry × Nat × Bool × List (Str × Str))} (body : c.body = lines ++ es.map Prod.fst)
    (hes : ∀ x ∈ es, HeadEntry T p m x) (hinc : (es.map fun x => x.2.1).Pairwise (· < ·)) {n : Nat} {aot : Bool}
    {P : List (Str × Str)} (hH : Hd T n aot P) (hm : m ≤ n) {k : Str} (hP : p ++ [k] <+: names P)
    {i : Nat} {cur : Entry} (hb : c.body[i]? = some cur) (hk : cur.name = some k)
    (hlast : ∀ j e, i < j → c.body[j]? = some e → e.name ≠ some k) (hnl : ¬ (∃ e ∈ lines, e = cur))
    (hwhy : ∀ x, (∃ y ∈ es, y.1 = cur ∧ (∀ z ∈ es, z = x ∨ z.2.1 < x.2.1)) → es.getLast? = some x → x.1.name ≠ some k →
      x.2.2.1 = true ∨ (∀ y ∈ es, y.1 = cur → y.2.2.1 = true ∧ aot = true ∧ names y.2.2.2 = names P)) :
    ∃ es0 x, es = es0 ++ [x] ∧ x.1 = cur ∧ i + 1 = c.body.length := by
  have hi : lines.length ≤ i := by
    rcases Nat.lt_or_ge i lines.length with h | h
    · exfalso
      apply hnl
      rw [body, List.getElem?_append_left h] at hb
      exact ⟨cur, List.mem_of_getElem? hb, rfl⟩
    · exact h
  rw [body, List.getElem?_append_right hi, List.getElem?_map] at hb
  rcases hy : es[i - lines.length]? with _ | y <;> rw [hy] at hb
  · cases hb
  simp only [Option.map_some, Option.some.injEq] at hb
  have hlt : i - lines.length < es.length := by
    rcases Nat.lt_or_ge (i - lines.length) es.length with h | h
    · exact h
    · rw [List.getElem?_eq_none h] at hy; cases hy
  obtain ⟨es0, x, rfl⟩ : ∃ es0 x, es = es0 ++ [x] := by
    rcases List.eq_nil_or_concat es with rfl | ⟨es0, x, h⟩
    · simp at hlt
    · exact ⟨es0, x, by simpa using h⟩
  have hlen : c.body.length = lines.length + (es0.length + 1) := by rw [body]; simp
  by_cases hlst : i + 1 = c.body.length
  · refine ⟨es0, x, rfl, ?_, hlst⟩
    have : i - lines.length = es0.length := by omega
    rw [this, List.getElem?_append_right (Nat.le_refl _)] at hy
    simp only [Nat.sub_self, List.getElem?_cons_zero, Option.some.injEq] at hy
    rw [hy]; exact hb
  · exfalso
    have hlt' : i - lines.length < es0.length := by simp at hlt; omega
    rw [List.getElem?_append_left hlt'] at hy
    have hy0 := List.mem_of_getElem? hy
    have hxn : x.1.name ≠ some k := by
      apply hlast (lines.length + es0.length) x.1 (by omega)
      rw [body, List.getElem?_append_right (by omega)]
      simp
    have hlt2 : ∀ z ∈ es0, z.2.1 < x.2.1 := by
      intro z hz
      rw [List.map_append, List.pairwise_append] at hinc
      exact hinc.2.2 _ (List.mem_map_of_mem hz) _ (by simp)
    have hX := hes x (by simp)
    have hY := hes y (List.mem_append_left _ hy0)
    obtain ⟨_, x2, kx, x3, x4, x5, x6, x7⟩ := hX
    obtain ⟨_, y2, ky, y3, y4, y5, y6, y7⟩ := hY
    have hnx : x.1.name = some kx.key := by unfold Entry.name; rw [x3]; rfl
    have hny : y.1.name = some ky.key := by unfold Entry.name; rw [y3]; rfl
    rw [hb, hk] at hny
    cases hny
    have hw := hwhy x ⟨y, List.mem_append_left _ hy0, hb, fun z hz => by
      rcases List.mem_append.1 hz with hz | hz
      · exact .inr (hlt2 z hz)
      · rw [List.mem_singleton] at hz; exact .inl hz⟩ (by simp) hxn
    have hpx : p ++ [ky.key] <+: names x.2.2.2 := by
      rcases hw with hw | hw
      · have x2' : T x.2.1 true x.2.2.2 := by rw [hw] at x2; exact x2.aot
        refine hC.grouped _ _ _ _ _ _ _ _ _ (hlt2 y hy0) (Nat.lt_of_lt_of_le (hes x (by simp)).1 hm) (y2.of_aot x2') (x2.of_aot x2')
          (hH.of_aot x2') (.inl hw) _ y6 hP
      · obtain ⟨w1, w2, w3⟩ := hw y (List.mem_append_left _ hy0) hb
        have hH' : T n true P := by rw [w2] at hH; exact hH.aot
        refine hC.grouped _ _ _ _ _ _ _ _ _ (hlt2 y hy0) (Nat.lt_of_lt_of_le (hes x (by simp)).1 hm) (y2.of_aot hH') (x2.of_aot hH')
          hH' (.inr ⟨w1, rfl, w3⟩) _ y6 hP
    have := List.prefix_of_prefix_length_le hpx x6 (by simp)
    have := this.eq_of_length (by simp)
    simp only [List.append_cancel_left_eq, List.cons.injEq, and_true] at this
    rw [hnx, this] at hxn
    exact hxn rfl

/-- same name, same spelling -/
theorem spelled_same {T : HeadRel} (hC : HeadsFit T) {n n' : Nat} {a a' : Bool} {P P' : List (Str × Str)} (h : T n a P)
    (h' : T n' a' P') (hl : 2 ≤ P.length ∨ a = true) {k k' : SKey} (hk : (k.orig, k.key) ∈ P) (hk' : (k'.orig, k'.key) ∈ P')
    (he : k.key = k'.key) : k.orig = k'.orig := hC.spelling _ _ _ _ _ _ h h' hl _ hk _ hk' he

theorem foldE_one {α β : Type} (f : β → α → Except Err β) (b : β) (a : α) : foldE f b [a] = f b a := by
  unfold foldE
  rcases f b a with e | b'
  · rfl
  · rfl

theorem spaceRun_nil : spaceRun [] = none := rfl

theorem map_orig_eq {key : Option SKey} {k : SKey} {o : Str} (h : key = some k) (ho : k.orig = o) : (key.map SKey.orig != some o) = false := by
  subst h; simp [ho]

/-- Appending what a header leads to. -/
theorem hist_append {T : HeadRel} (hC : HeadsFit T) {n : Nat} {aot : Bool} {P : List (Str × Str)} (hH : Hd T n aot P) {r : List (Str × Str)} {k : SKey}
    {v : Item} (hpc : Piece aot r k v) : ∀ (P0 : List (Str × Str)), P = P0 ++ r → ∀ {p : List Str}, names P0 = p → ∀ {m : Nat} {c : Cont},
    Hist T p m c → c.Good PW → v.Good PW → m ≤ n → ∀ {N : Nat} {val : Bool} {c' : Cont} {mv : Bool},
    Cont.append1 N false val c (some k) v = .ok (c', mv) → mv = false ∧ Hist T p (n + 1) c' := by
  induction hpc with
  | leaf k tb hs ha hn h0 hd =>
    intro P0 hP p hp m c hh hg hv hm N val c' mv h
    have hpc : Piece aot _ k (.table tb) := .leaf k tb hs ha hn h0 hd
    have hsup : tb.isSuper = false := by unfold Tbl.isSuper; rw [hs]
    rcases N with _ | N
    · cases h
    rcases append1_cases h with ⟨item', c', hp1, hk, ht⟩ | ⟨item', c', k, i, cur, ct, tb', hp1, hk, hl, hc, hi, ht⟩ |
      ⟨item', k, i, cur, tb', ts, t, nm, p, hp1, hk, hal, hl, hc, hi, ha'⟩ |
      ⟨item', k, i, cur, tb', ct, c', hp1, hk, hal, hl, hc, hi, ha', hr⟩ |
      ⟨item', k, i, cur, tb', ct, c', idx, hp1, hk, hl, hc, hi, hs, hs', hidx, hr, hv⟩ |
      ⟨item', k, i, cur, tb', ct, ct', mv, hp1, hk, hl, hc, hi, hs, hs', hd, hd', hf⟩ |
      ⟨item', k, i, cur, ts, t, nm, p, ts', t', nm', p', hp1, hk, hal, hl, hc, hi⟩
    · obtain ⟨hpc', he⟩ := hpc.prepare hh.isParsed hp1
      rw [histTail_raw hh.isParsed] at ht
      exact ⟨rfl, hh.snoc hpc' hH hP hp hm ht⟩
    · cases hk
      obtain ⟨hpc', he⟩ := hpc.prepare hh.isParsed hp1
      rw [histTail_raw hh.isParsed] at ht
      exact ⟨rfl, hh.snoc hpc' hH hP hp hm ht⟩
    all_goals
      cases hk
      have := (((hpc.prepare hh.isParsed hp1).2.1 tb rfl).symm.trans hi)
      cases this <;> first
        | (rw [ha] at ha'; cases ha')
        | (rw [hsup] at hs'; cases hs')
  | arr k ts0 t0 nm0 b0 hi0 h0 hd =>
    intro P0 hP p hp m c hh hg hv hm N val c' mv h
    have hpc : Piece aot _ k (.aot ts0 t0 nm0 b0) := .arr k ts0 t0 nm0 b0 hi0 h0 hd
    rcases N with _ | N
    · cases h
    have hpw : PW c := ((Cont.good_iff _).1 hg).1
    cases append1_cases h with
    | fresh item' c' hp1 hk ht =>
      obtain ⟨hpc', he⟩ := hpc.prepare hh.isParsed hp1
      rw [histTail_raw hh.isParsed] at ht
      exact ⟨rfl, hh.snoc hpc' hH hP hp hm ht⟩
    | again item' c' k i cur ct tb' hp1 hk hl hc hi ht =>
      cases hk
      obtain ⟨hpc', he⟩ := hpc.prepare hh.isParsed hp1
      rw [histTail_raw hh.isParsed] at ht
      exact ⟨rfl, hh.snoc hpc' hH hP hp hm ht⟩
    | aotAdd item' k i cur tb ts t nm p hp1 hk hal hl hc hi ha =>
      cases hk
      exact absurd hi ((hpc.prepare hh.isParsed hp1).2.2 _ _ _ _ rfl _)
    | toAoT item' k i cur tb ct c' hp1 hk hal hl hc hi ha hr =>
      cases hk
      exact absurd hi ((hpc.prepare hh.isParsed hp1).2.2 _ _ _ _ rfl _)
    | superApart item' k i cur tb ct c' idx hp1 hk hl hc hi hs hs' hidx hr hv =>
      cases hk
      exact absurd hi ((hpc.prepare hh.isParsed hp1).2.2 _ _ _ _ rfl _)
    | superMerge item' k i cur tb ct ct' mv hp1 hk hl hc hi hs hs' hd hd' hf htk =>
      cases hk
      exact absurd hi ((hpc.prepare hh.isParsed hp1).2.2 _ _ _ _ rfl _)
    | aotMerge item' k i cur ts t nm p' ts' t' nm' pp hp1 hk hal hl hc hi =>
      cases hk
      obtain ⟨l1, l2, l3⟩ := lastEntry_last hpw hl
      cases hh with
      | mk lines es body parsed hlines hes hinc hkeys hind hrec =>
        have hPk : p ++ [k.key] = names P := by rw [hP, ← hp]; simp [names]
        obtain ⟨es0, x, rfl, rfl, hlst⟩ := Hist.at_last hC body hes hinc hH hm (k := k.key) (by rw [hPk]; exact List.prefix_refl _) l1 l2 l3
          (by rintro ⟨e, he, rfl⟩; exact (hlines e he).2 _ _ _ _ hc)
          (by
            intro x _ _ _
            right
            rintro y hy rfl
            obtain ⟨_, _, ky, y3, _, _, _, y7⟩ := hes y hy
            rcases y7 with ⟨tb, b, y7, _⟩ | ⟨_, _, _, _, _, _, y8, y9⟩
            · rw [hc] at y7; cases y7
            · refine ⟨y8, h0, ?_⟩
              rw [y9, ← hPk]
              unfold Entry.name at l2
              rw [y3] at l2
              simp only [Option.map_some, Option.some.injEq] at l2
              rw [l2])
        obtain ⟨x1, x2, kx, x3, x4, x5, x6, x7⟩ := hes x (by simp)
        have hkx : kx.key = k.key := by
          unfold Entry.name at l2
          rw [x3] at l2
          simp only [Option.map_some, Option.some.injEq] at l2
          exact l2
        rcases x7 with ⟨tb, b, x7, _⟩ | ⟨xts, xt, xnm, xb, x7, x8, x9, x10⟩
        · rw [hc] at x7; cases x7
        rw [hc] at x7
        cases x7
        have horig : kx.orig = k.orig := by
          refine spelled_same hC (by rw [x9] at x2; exact x2.aot) (by rw [h0] at hH; exact hH.aot) (.inr rfl) x5 (by rw [hP]; simp) hkx
        constructor
        · rw [hlst, map_orig_eq x3 horig, x8]; simp [spaceRun_nil]
        · refine Hist.setLast (m := m) (by omega) body parsed hlines hes hinc (hkeys x (by simp)) hlst ⟨by show x.2.1 < n + 1; omega, x2, kx, x3, x4, x5, x6, ?_⟩ ?_ ?_ ?_
          · exact .inr ⟨_, _, _, _, rfl, x8, x9, x10⟩
          · intro h; cases h
          · intro tb h; cases h
          · intro tb k _ h; cases h
  | chain k tb k2 v2 r hs ha hn hi hd hb hpd ht hpc2 ih =>
    intro P0 hP p hp m c hh hg hv hm N val c' mv h
    have hpc : Piece aot _ k (.table tb) := .chain k tb k2 v2 r hs ha hn hi hd hb hpd ht hpc2
    have hlong : 2 ≤ P.length := by
      have := List.length_pos_iff.2 hpc2.ne
      rw [hP]; simp; omega
    rcases N with _ | N
    · cases h
    have hpw : PW c := ((Cont.good_iff _).1 hg).1
    cases append1_cases h with
    | fresh item' c' hp1 hk ht =>
      obtain ⟨hpc', he⟩ := hpc.prepare hh.isParsed hp1
      rw [histTail_raw hh.isParsed] at ht
      exact ⟨rfl, hh.snoc hpc' hH hP hp hm ht⟩
    | again item' c' k i cur ct tb' hp1 hk hl hc hi ht =>
      cases hk
      obtain ⟨hpc', he⟩ := hpc.prepare hh.isParsed hp1
      rw [histTail_raw hh.isParsed] at ht
      exact ⟨rfl, hh.snoc hpc' hH hP hp hm ht⟩
    | aotAdd item' k i cur tb' ts t nm p hp1 hk hal hl hc hi' ha' =>
      cases hk
      have := (((hpc.prepare hh.isParsed hp1).2.1 tb rfl).symm.trans hi')
      cases this
      rw [ha] at ha'; cases ha'
    | toAoT item' k i cur tb' ct c' hp1 hk hal hl hc hi' ha' hr =>
      cases hk
      have := (((hpc.prepare hh.isParsed hp1).2.1 tb rfl).symm.trans hi')
      cases this
      rw [ha] at ha'; cases ha'
    | superApart item' k i cur tb' ct c' idx hp1 hk hl hc hi' hs1 hs' hidx hr hv' =>
      cases hk
      obtain ⟨hpc', he⟩ := hpc.prepare hh.isParsed hp1
      rw [hh.isParsed] at hidx
      simp only [Bool.not_true, Bool.and_false, Bool.false_eq_true, if_false] at hidx
      subst hidx
      rw [if_neg (by omega)] at hr
      exact ⟨by simp, hh.snoc hpc' hH hP hp hm hr⟩
    | aotMerge item' k i cur ts t nm p' ts' t' nm' pp hp1 hk hal hl hc hi' =>
      cases hk
      have := (((hpc.prepare hh.isParsed hp1).2.1 tb rfl).symm.trans hi')
      cases this
    | superMerge item' k i cur tb' ct ct' mv' hp1 hk hl hc hi' hs1 hs' hd1 hd' hf htk =>
      cases hk
      have := (((hpc.prepare hh.isParsed hp1).2.1 tb rfl).symm.trans hi')
      cases this
      obtain ⟨l1, l2, l3⟩ := lastEntry_last hpw hl
      have hgc : ct.Good PW := by
        have := ((Cont.good_iff _).1 hg).2 cur (List.mem_of_getElem? l1)
        rwa [hc] at this
      cases hh with
      | mk lines es body parsed hlines hes hinc hkeys hind hrec =>
        have hPk : p ++ [k.key] <+: names P := by
          rw [hP, ← hp]
          exact ⟨names r, by simp [names]⟩
        obtain ⟨es0, x, rfl, rfl, hlst⟩ := Hist.at_last hC body hes hinc hH hm (k := k.key) hPk l1 l2 l3
          (by
            rintro ⟨e, he, rfl⟩
            unfold Entry.name at l2
            rcases hek : e.key with _ | ke <;> rw [hek] at l2
            · cases l2
            rw [hek] at hd'
            have := (hlines e he).1 ke hek hd'
            rw [hc] at this; cases this)
          (by
            intro x _ hx hxn
            left
            obtain ⟨_, _, ky, y3, _, _, _, y7⟩ := hes x (List.mem_of_getLast? hx)
            rcases y7 with ⟨tb, b, y7, _⟩ | ⟨_, _, _, _, _, _, y8, y9⟩
            · exfalso
              apply hxn
              rw [← hkeys x hx (by rw [y7]; rfl)]
              exact htk
            · exact y8)
        obtain ⟨x1, x2, kx, x3, x4, x5, x6, x7⟩ := hes x (by simp)
        have hkx : kx.key = k.key := by
          unfold Entry.name at l2
          rw [x3] at l2
          simp only [Option.map_some, Option.some.injEq] at l2
          exact l2
        rcases x7 with ⟨tb', b, x7, x8, x9⟩ | ⟨xts, xt, xnm, xb, x7, x8, x9, x10⟩
        rotate_left
        · rw [hc] at x7; cases x7
        rw [hc] at x7
        cases x7
        have hbt : b = true := by
          unfold Tbl.isSuper at hs1
          rw [x8] at hs1; exact hs1
        subst hbt
        have horig : kx.orig = k.orig :=
          spelled_same hC (x2.long (x9 rfl)) (hH.long hlong) (.inl (x9 rfl)) x5 (by rw [hP]; simp) hkx
        have hsub := hrec x ct kx (by simp) x3 hc x8
        have hcind := hind x ct (by simp) hc x8
        rw [hb, foldE_one] at hf
        have hf' : ∃ mv1, Tbl.append1 N false ct.deepCopy (some k2) v2 = .ok (ct', mv1) ∧ mv' = mv1 := by
          revert hf
          show (Except.map _ (Tbl.append1 N false ct.deepCopy (some k2) v2)) = _ → _
          rcases Tbl.append1 N false ct.deepCopy (some k2) v2 with e | ⟨t1, mv1⟩
          · intro h; cases h
          · intro h
            simp only [Except.map, Except.ok.injEq, Prod.mk.injEq, Bool.false_or] at h
            exact ⟨mv1, by rw [h.1], h.2.symm⟩
        obtain ⟨mv1, hf1, rfl⟩ := hf'
        rcases N with _ | N
        · cases hf1
        rw [Tbl.append1] at hf1
        rcases ha1 : Cont.append1 N false true ct.deepCopy.cont (some k2) v2 with e | ⟨c1, mv2⟩ <;> rw [ha1] at hf1
        · cases hf1
        dsimp only at hf1
        have hdc : ct.deepCopy.cont = ct.cont.deepCopy := by cases ct; rfl
        have hdi : ct.deepCopy.trivia.indent = [] := by rw [← hcind]; cases ct; rfl
        have hds : ct.deepCopy.superFlag = some true := by rw [← x8]; cases ct; rfl
        have hgt : tb.Good PW := hv
        have hg2 : v2.Good PW := by
          have := ((Cont.good_iff _).1 ((Tbl.good_iff _).1 hgt)).2 (.mk (some k2) v2) (by rw [hb]; simp)
          exact this
        rw [hdc] at ha1
        obtain ⟨i1, i2⟩ := ih (P0 ++ [(k.orig, k.key)]) (by rw [hP]; simp) (p := p ++ [k.key]) (by rw [← hp]; simp [names])
          (by rw [← hkx]; exact hsub.deepCopy) (Cont.deepCopy_good closed_PW _ ((Tbl.good_iff _).1 hgc)) hg2 hm ha1
        rw [hdi, spaceRun_nil] at hf1
        have hres : ct' = ct.deepCopy.setCont c1 ∧ mv' = mv2 := by
          revert hf1
          rcases Cont.has N c1 k2.key with e | b
          · intro h; cases h
          · intro h
            simp only [Except.ok.injEq, Prod.mk.injEq] at h
            exact ⟨h.1.symm, h.2.symm⟩
        obtain ⟨rfl, rfl⟩ := hres
        constructor
        · rw [hlst, map_orig_eq x3 horig, i1]; simp
        · refine Hist.setLast (m := m) (by omega) body parsed hlines hes hinc (hkeys x (by simp)) hlst
            ⟨by show x.2.1 < n + 1; omega, x2, kx, x3, x4, x5, x6, ?_⟩ ?_ ?_ ?_
          · exact .inl ⟨_, true, rfl, by rw [← hds]; cases ct.deepCopy; rfl, x9⟩
          · intro _; rw [hc]; rfl
          · intro tb1 h _
            cases h
            rw [← hdi]; cases ct.deepCopy; rfl
          · intro tb1 k1 hk1 h _
            cases h
            rw [x3] at hk1
            cases hk1
            rw [setCont_cont, hkx]
            exact i2

end Tomlkit
