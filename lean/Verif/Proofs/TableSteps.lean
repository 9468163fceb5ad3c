import Verif.Proofs.Spine
import Verif.Proofs.Headers
/-!
# The steps of the loops over tables
-/
namespace Tomlkit
open _root_.Spec Tomlkit.Spec

/-! ## Leaves -/

theorem named_isBool (k : SKey) (v : Item) : (named k v).isBool = v.isBool := by
  unfold named
  split
  · rename_i h
    clear h
    rcases v with _ | _ | _ | _ | _ | _ | _ | _ | _ | _ | _ | ⟨_, _, _, _, _, _⟩ | _ | _ <;> rfl
  · rfl

theorem leafStep_new {l : List PyPair} {k : Str} {w : PyVal} {v : Item} (hk : k ∉ l.map PyPair.key) (hw : Means w v)
    (hv : v.isBool = false) :
    LeafStep (ReadCont · l) (ReadCont · (l ++ [.mk k w])) k v := by
  intro c sk n b hc hg hsk hd
  subst hsk
  exact ⟨_, _, append1_plus hc hk v n b, readCont_plus hc hk (means_named sk hw), settled_plus _ _ (by rw [named_isBool]; exact hv)⟩

/-- the last key of the container is an array of tables -/
def AotCont (l : List PyPair) (k : Str) (a : List PyVal) (c : Cont) : Prop :=
  ∃ (base : Cont) (sk : SKey) (ts : List Tbl) (t : Trivia) (nm : Option Str) (p : Bool), c = base.plus sk (.aot ts t nm p) ∧ ReadCont base l ∧
    base.Good PW ∧ sk.key = k ∧ k ∉ l.map PyPair.key ∧ MeansAll a (ts.map Item.table)

theorem AotCont.read {l : List PyPair} {k : Str} {a : List PyVal} {c : Cont} (h : AotCont l k a c) : ReadCont c (l ++ [.mk k (.list a)]) := by
  obtain ⟨base, sk, ts, t, nm, p, rfl, hb, _, rfl, hk, ha⟩ := h
  exact readCont_plus hb hk (means_aot ha t nm p)

theorem AotCont.copy {l : List PyPair} {k : Str} {a : List PyVal} (c : Cont) (h : AotCont l k a c) (hg : c.Good PW) : AotCont l k a c.deepCopy := by
  obtain ⟨base, sk, ts, t, nm, p, rfl, hb, gb, rfl, hk, ha⟩ := h
  have hgi : (Item.aot ts t nm p).Good PW := by
    have := ((Cont.good_iff _).1 hg).2 (.mk (some sk) (.aot ts t nm p)) (by simp [Cont.plus])
    exact this
  have e : (Item.aot ts t nm p).deepCopy = .aot ((ts.map Tbl.deepCopy).foldl (aotAppend { trail := [] } p) []) { trail := [] } nm p := by
    unfold Item.deepCopy
    rw [deepCopyTables_eq]
    rfl
  have h1 := aotFold_means { trail := [] } p _ [] a [] (meansAll_deepCopy ((Item.good_aot ts t nm p).1 hgi) ha) (by unfold MeansAll; rfl)
  rw [List.nil_append] at h1
  exact ⟨base.deepCopy, sk, _, _, nm, p, by rw [deepCopy_plus, e], readCont_deepCopy hb gb, Cont.deepCopy_good closed_PW _ gb, rfl, hk, h1⟩

theorem leafStep_aotNew {l : List PyPair} {k : Str} {a : List PyVal} {ts : List Tbl} {t : Trivia} {nm : Option Str} {p : Bool}
    (hk : k ∉ l.map PyPair.key) (ha : MeansAll a (ts.map Item.table)) :
    LeafStep (ReadCont · l) (AotCont l k a) k (.aot ts t nm p) := by
  intro c sk n b hc hg hsk hd
  subst hsk
  refine ⟨_, _, append1_plus hc hk _ n b, ?_, settled_plus _ _ (by unfold named; split <;> rfl)⟩
  unfold named
  split
  · exact ⟨c, sk, ts, t, _, p, rfl, hc, hg, rfl, hk, ha⟩
  · exact ⟨c, sk, ts, t, nm, p, rfl, hc, hg, rfl, hk, ha⟩

theorem leafStep_aotMore {l : List PyPair} {k : Str} {a b : List PyVal} {ts : List Tbl} {t : Trivia} {nm : Option Str} {p : Bool}
    (hb : MeansAll b (ts.map Item.table)) : LeafStep (AotCont l k a) (AotCont l k (a ++ b)) k (.aot ts t nm p) := by
  intro c sk n bb hc hg hsk hd
  obtain ⟨base, sk0, ts0, t0, nm0, p0, rfl, hb0, gb0, rfl, hk0, ha0⟩ := hc
  have hget : mapGet sk.key (base.plus sk0 (.aot ts0 t0 nm0 p0)).map = some [base.body.length] := by rw [hsk]; exact plus_get _ _ _
  have hlast : (base.plus sk0 (.aot ts0 t0 nm0 p0)).lastEntry sk.key = some (base.body.length, .mk (some sk0) (.aot ts0 t0 nm0 p0)) := by
    unfold Cont.lastEntry
    rw [hget]
    simp [Cont.plus]
  have hnamed : ∃ nm', named sk (.aot ts t nm p) = .aot ts t nm' p := by
    unfold named
    split
    · exact ⟨_, rfl⟩
    · exact ⟨_, rfl⟩
  obtain ⟨nm', hnamed⟩ := hnamed
  have hres : ∃ mv, Cont.append1 (n + 2) false bb (base.plus sk0 (.aot ts0 t0 nm0 p0)) (some sk) (.aot ts t nm p) =
      .ok (base.plus sk0 (.aot (ts.foldl (aotAppend t0 p0) ts0) t0 nm0 p0), mv) := by
    rw [Cont.append1]
    simp only [Bool.false_and, Bool.false_eq_true, if_false]
    rw [prepare_named (show (base.plus sk0 (.aot ts0 t0 nm0 p0)).parsed = true from hb0.parsed), hnamed]
    dsimp only
    rw [has_single hget, hlast]
    dsimp only
    have hps := plus_set base sk0 (.aot ts0 t0 nm0 p0) (.aot (ts.foldl (aotAppend t0 p0) ts0) t0 nm0 p0) rfl
    exact ⟨_, congrArg (fun z => Except.ok (z, _)) hps⟩
  obtain ⟨mv, hres⟩ := hres
  exact ⟨_, mv, hres, ⟨base, sk0, _, t0, nm0, p0, rfl, hb0, gb0, rfl, hk0, aotFold_means t0 p0 ts ts0 b a hb ha0⟩, settled_plus _ _ rfl⟩

theorem reind_read {l : List PyPair} {k : Str} : Reind (ReadCont · l) k := fun _ f j h _ => readCont_reind h f j

theorem reind_aot {l : List PyPair} {k : Str} {a : List PyVal} : Reind (AotCont l k a) k := by
  rintro c f j ⟨base, sk, ts, t, nm, p, rfl, hb, gb, rfl, hk, ha⟩ hj
  rw [plus_get] at hj
  cases hj
  rw [plus_reind]
  exact ⟨base, sk, ts, _, nm, p, rfl, hb, gb, rfl, hk, ha⟩

/-! ## Pieces -/

theorem IsPiece.size {leaf item : Item} {r : List Str} (h : IsPiece leaf r item) : r.length ≤ item.size := by
  induction h with
  | leaf => simp
  | @wrap p inner r t nm hd h ih =>
    unfold wrapOne
    simp only [List.length_cons, Item.size, Tbl.size, Cont.size, List.entriesSize, Entry.size]
    omega

theorem append_piece {P P' : Cont → Prop} (hcopy : ∀ c, P c → c.Good PW → P c.deepCopy) {k : Str} {leaf : Item} (hS : LeafStep P P' k leaf)
    (hre : Reind P' k) {fr : List (Str × List PyPair)} {c : Cont} (h : Spine P c fr) (hg : c.Good PW) (hl : leaf.Good PW) {sk : SKey} {r : List Str} {item : Item}
    (hi : IsPiece leaf r item) (he : sk.key :: r = fr.map Prod.fst ++ [k]) (hd : sk.dotted = false) (hn : fr ≠ [] → leaf.name?.isSome = true)
    (b : Bool) : ∃ c' mv, Cont.append b c (some (.single sk)) item = .ok (c', mv) ∧ (Spine P' c' fr ∧ c'.Good PW) ∧
      ∃ i, mapGet sk.key c'.map = some [i] := by
  have hlen : r.length = fr.length := by
    have := congrArg List.length he
    simpa using this
  have hfuel : 2 * fr.length + 2 ≤ fuelFor c item := by
    have := hi.size
    unfold fuelFor
    omega
  obtain ⟨c', mv, h1, h2, j, _, h3, _⟩ := spine_append hcopy hS hre h hg hi he hd hn _ hfuel b
  have h1' : Cont.append b c (some (.single sk)) item = .ok (c', mv) := by
    unfold Cont.append
    exact h1
  exact ⟨c', mv, h1', ⟨h2, append_good closed_PW hg (hi.good hl) h1'⟩, j, h3⟩

theorem chain_piece (h : Header) (tb : Tbl) : ∀ (ks : List SKey) (t : Trivia) (nm : Str), ks ≠ [] →
    (∀ p ∈ ks, p.dotted = false) → ∃ leafnm, IsPiece (if h.isAot then mkAoT [tb] (some leafnm) true else .table tb) (ks.map SKey.key)
      (.table (h.chain tb t false nm ks))
  | [], _, _, hne, _ => absurd rfl hne
  | [k], t, nm, _, hd => ⟨nm, IsPiece.wrap t nm (hd k (by simp)) .leaf⟩
  | k :: k2 :: r, t, nm, _, hd => by
    obtain ⟨leafnm, h1⟩ := chain_piece h tb (k2 :: r) ⟨h.indent, h.cws, h.comment, h.trail⟩ k.key (by simp)
      (fun p hp => hd p (List.mem_cons_of_mem _ hp))
    exact ⟨leafnm, IsPiece.wrap t nm (hd k (by simp)) h1⟩

/-! ## The loops -/

/-- a loop that reads tables into a container -/
def TSink {α : Type} (parent : Option Key) (L : Nat → Cont → St → Res α) : Prop :=
  ∀ (Q : Cont → Prop) (n : Nat) (c : Cont) (st s1 : St) (sk : SKey) (v : Item) (b : Bool) (next : Key), st.rest ≠ [] →
    peekTable st = .ok (b, next) st → (∀ full, parent = some full → isChild full next = true) →
    parseTable n parent st = .ok (.single sk, v) s1 → (∀ tb, v = .table tb → tb.isAot = false) →
    (∀ val, ∃ c' mv, Cont.append val c (some (.single sk)) v = .ok (c', mv) ∧ Q c' ∧ ∃ i, mapGet sk.key c'.map = some [i]) →
    ∃ c' l, L (n + 1) c st = L n c' ⟨s1.rest, s1.ext, s1.aot, l⟩ ∧ Q c'

theorem tsink_top : TSink none topTables := by
  intro Q n c st s1 sk v b next h0 hp _ ht hv ha
  have hend : ¬ (st.atEnd = true) := by unfold St.atEnd; cases hr : st.rest <;> simp_all
  obtain ⟨c', mv, h1, h2, _⟩ := ha true
  rw [topTables, getSt_bind, if_neg hend, P.bind_def, ht]
  dsimp only
  have fin : (do
      let v ← pure v
      let r ← wrapErr (Cont.append true c (some (Key.single sk)) v)
      note r.2 .reordered
      topTables n r.1 : P Cont) s1 = topTables n c' ⟨s1.rest, s1.ext, s1.aot, s1.loss ++ (if mv then [.reordered] else [])⟩ := by
    rw [P.bind_def]
    have : (pure v : P Item) s1 = .ok v s1 := rfl
    rw [this]
    dsimp only
    rw [P.bind_def, h1, wrapErr_ok]
    dsimp only
    rw [P.bind_def, note_ok]
  rcases v with _ | _ | _ | _ | _ | _ | _ | _ | _ | _ | _ | tb | ⟨ts, t, nm, p⟩ | _
  case table =>
    dsimp only
    rw [if_neg (by rw [hv tb rfl]; simp)]
    exact ⟨_, _, fin, h2⟩
  all_goals exact ⟨_, _, fin, h2⟩

theorem tsink_child (full : Key) (tb : Tbl) : TSink (some full) fun n c => childLoop n full (tb.setCont c) := by
  intro Q n c st s1 sk v b next h0 hp hch ht hv ha
  have hend : ¬ (st.atEnd = true) := by unfold St.atEnd; cases hr : st.rest <;> simp_all
  obtain ⟨c', mv, h1, h2, i, h3⟩ := ha false
  dsimp only
  rw [childLoop, getSt_bind, if_neg hend, P.bind_def, hp]
  dsimp only
  rw [hch full rfl]
  simp only [if_true]
  rw [P.bind_def, ht]
  dsimp only
  have hr : (tb.setCont c).rawAppend (some (.single sk)) v = .ok (tb.setCont c', mv) := by
    unfold Tbl.rawAppend
    rw [setCont_cont, h1]
    simp only [Option.map, Key.parts, fuelFor]
    rw [Cont.has, h3]
    dsimp only
    rw [setCont_setCont]
  rw [P.bind_def, hr, lift_ok']
  dsimp only
  rw [P.bind_def, note_ok]
  exact ⟨_, _, rfl, h2⟩

theorem foldE_unit {α : Type} {f : Unit → α → Except Err Unit} : ∀ {l : List α}, (∀ a ∈ l, f () a = .ok ()) → foldE f () l = .ok ()
  | [], _ => rfl
  | a :: r, h => by
    rw [foldE, h a (by simp)]
    exact foldE_unit fun x hx => h x (by simp [hx])

theorem mem_map_get {k : Str} : ∀ {m : List (Str × List Nat)}, k ∈ m.map (·.1) → (mapGet k m).isSome = true
  | [], h => by cases h
  | (k', v) :: r, h => by
    unfold mapGet
    split
    · rfl
    · rename_i hne
      rw [List.map_cons, List.mem_cons] at h
      rcases h with h | h
      · simp [h] at hne
      · exact mem_map_get h

theorem readCont_validate {c : Cont} {l : List PyPair} (h : ReadCont c l) : c.validateAll = .ok () := by
  unfold Cont.validateAll
  refine foldE_unit fun k hk => ?_
  have hm : k ∈ l.map PyPair.key := by
    rw [← h.dict]
    exact (h.wf.dictMem k).2 (mem_map_get hk)
  obtain ⟨⟨k', w⟩, hm', rfl⟩ := List.mem_map.1 hm
  rw [PyPair.key_mk, meansKey_has (h.holds k' w hm') (by unfold fuelFor; omega)]
  rfl

end Tomlkit
