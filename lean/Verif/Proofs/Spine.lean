import Verif.Proofs.ReadDoc
import Verif.Proofs.CopyData
import Verif.Proofs.AppendErr
/-!
# Tables appended while parsing: implicit parents and their merging
-/
namespace Tomlkit
open _root_.Spec Tomlkit.Spec

/-- one more key -/
def Cont.plus (c : Cont) (k : SKey) (v : Item) : Cont :=
  .mk (c.body ++ [.mk (some k) v]) (mapSet k.key [c.body.length] c.map) (dictSet k.key c.dict) c.parsed
    (if v.isTable then c.tableKeys ++ [k.key] else c.tableKeys)

theorem rawAppend_plus {c : Cont} {k : SKey} (v : Item) (hk : mapGet k.key c.map = none) : c.rawAppend (some k) v = .ok (c.plus k v) := by
  unfold Cont.rawAppend Cont.plus
  simp only [hk]

theorem plus_get (c : Cont) (k : SKey) (v : Item) : mapGet k.key (c.plus k v).map = some [c.body.length] := by
  unfold Cont.plus
  rw [Cont.map_mk, mapGet_mapSet, if_pos rfl]

theorem readCont_plus {c : Cont} {l : List PyPair} (h : ReadCont c l) {k : SKey} {v : Item} {w : PyVal} (hk : k.key ∉ l.map PyPair.key)
    (hw : Means w v) : ReadCont (c.plus k v) (l ++ [.mk k.key w]) := by
  have ha := h.absent hk
  refine ⟨h.parsed, h.wf.rawAppend (fun k' hk' hs => ?_) (rawAppend_plus v ha), ?_, ?_⟩
  · cases hk'; rw [ha] at hs; cases hs
  · unfold Cont.plus
    rw [Cont.dict_mk, dictSet_new (WF.not_mem_dict h.wf ha), h.dict]; simp
  · have hne : ∀ k' w', .mk k' w' ∈ l → k.key ≠ k' := fun k' w' hm h0 => hk (by rw [h0]; exact List.mem_map_of_mem (f := PyPair.key) hm)
    refine meansIn_append (fun k' w' hm => ?_) (MeansIn.single (.one v ?_ hw))
    · have hm' : mapGet k' (c.plus k v).map = mapGet k' c.map := by
        unfold Cont.plus
        rw [Cont.map_mk, mapGet_mapSet, if_neg (hne k' w' hm)]
      cases h.holds k' w' hm with
      | one i hi hw' =>
        refine .one i ?_ hw'
        rw [item_single] at hi ⊢
        obtain ⟨n, e, h1, h2, h3⟩ := hi
        refine ⟨n, e, by rw [hm']; exact h1, ?_, h3⟩
        unfold Cont.plus
        rw [Cont.body_mk, List.getElem?_append_left (List.getElem?_eq_some_iff.1 h2).1]; exact h2
      | parts is U l' hi hw' hU hn =>
        refine .parts is U l' ?_ hw' ?_ hn
        · rw [item_many] at hi ⊢
          rw [hm']; exact hi
        · have hbound : ∀ i ∈ is, i < c.body.length := fun i hi' => by
            obtain ⟨h1, h2⟩ := item_many.1 hi
            have hlen : 1 < is.length := by have := List.length_pos_of_mem hi'; omega
            have := h.wf.multi k' is h1 hlen i hi'
            have := (List.getElem?_eq_some_iff.1 this).1
            simpa using this
          have : tablesAt (c.plus k v).body is = tablesAt c.body is := by
            unfold tablesAt Cont.plus
            rw [Cont.body_mk]
            refine filterMap_congr_mem fun i hi' => ?_
            rw [List.getElem?_append_left (hbound i hi')]
          rw [this]; exact hU
    · rw [item_single]
      exact ⟨c.body.length, .mk (some k) v, plus_get c k v, by simp [Cont.plus], rfl⟩

theorem good_plus {c : Cont} {l : List PyPair} (hr : ReadCont c l) (h : c.Good PW) {k : SKey} {v : Item} (hk : k.key ∉ l.map PyPair.key)
    (hv : v.Good PW) : (c.plus k v).Good PW := by
  have ha := hr.absent hk
  rw [Cont.good_iff] at h ⊢
  refine ⟨rawAppend_PW h.1 (hr.wf.rawAppend (fun k' hk' hs => ?_) (rawAppend_plus v ha)) (rawAppend_plus v ha), fun e he => ?_⟩
  · cases hk'; rw [ha] at hs; cases hs
  · simp only [Cont.plus, Cont.body_mk, List.mem_append, List.mem_singleton] at he
    rcases he with he | rfl
    · exact h.2 e he
    · exact hv

theorem deepCopy_plus (c : Cont) (k : SKey) (v : Item) : (c.plus k v).deepCopy = c.deepCopy.plus k v.deepCopy := by
  rcases c with ⟨b, m, d, p, tk⟩
  unfold Cont.plus
  simp only [Cont.body_mk, Cont.map_mk, Cont.dict_mk, Cont.deepCopy]
  rw [deepCopyEntries_eq, deepCopyEntries_eq, List.map_append, List.length_map, Item.isTable_deepCopy]
  have : dictOfBody (b ++ [.mk (some k) v]) = dictSet k.key (dictOfBody b) := by
    unfold dictOfBody; rw [List.foldl_append]; rfl
  rw [this]
  rfl

theorem readCont_deepCopy {c : Cont} {l : List PyPair} (h : ReadCont c l) (hg : c.Good PW) : ReadCont c.deepCopy l := by
  have hp := ((Cont.good_iff c).1 hg).1
  refine ⟨?_, ?_, ?_, meansIn_deepCopy hg h.holds⟩
  · cases c; exact h.parsed
  · exact ((Cont.good_iff _).1 (Cont.deepCopy_good closed_PW c hg)).1.wf
  · rw [← h.dict, hp.order]; cases c; rfl

/-! ## Adding a new key -/

theorem means_named {w : PyVal} {v : Item} (k : SKey) (h : Means w v) : Means w (named k v) := by
  unfold named
  split
  · exact means_setName _ h
  · exact h

theorem good_named {W : Cont → Prop} {v : Item} (k : SKey) (h : v.Good W) : (named k v).Good W := by
  unfold named
  split
  · rw [Item.setName_good]; exact h
  · exact h

theorem append1_plus {c : Cont} {l : List PyPair} (h : ReadCont c l) {k : SKey} (hk : k.key ∉ l.map PyPair.key) (v : Item) (n : Nat) (b : Bool) :
    Cont.append1 (n + 2) false b c (some k) v = .ok (c.plus k (named k v), false) := by
  rw [Cont.append1]
  simp only [Bool.false_and, Bool.false_eq_true, if_false, prepare_named h.parsed, has_absent (h.absent hk)]
  unfold Cont.appendTail
  simp only [h.parsed, Bool.not_true, Bool.and_false, Bool.false_and, Bool.false_eq_true, if_false]
  rw [rawAppend_plus _ (h.absent hk)]
  rfl

/-! ## Trivia -/

/-- an entry is indented -/
def Cont.reind (f : Trivia → Trivia) (j : Nat) (c : Cont) : Cont := .mk (setTriviaAt j f c.body) c.map c.dict c.parsed c.tableKeys

theorem reind_at (f : Trivia → Trivia) (j n : Nat) (b : List Entry) : (setTriviaAt j f b)[n]? =
    if j = n then b[n]?.map (fun e => .mk e.key (e.v.setTrivia (f e.v.trivia))) else b[n]? := by
  unfold setTriviaAt
  rw [List.getElem?_modify]
  by_cases h : j = n
  · subst h; simp
  · simp [h]

theorem reind_tables (f : Trivia → Trivia) (j : Nat) (b : List Entry) (is : List Nat) :
    (tablesAt (setTriviaAt j f b) is).flatMap (fun t => t.cont.body) = (tablesAt b is).flatMap (fun t => t.cont.body) := by
  unfold tablesAt
  induction is with
  | nil => rfl
  | cons i r ih =>
    rw [List.filterMap_cons, List.filterMap_cons, reind_at]
    by_cases h : j = i
    · rw [if_pos h]
      rcases b[i]? with _ | ⟨k, v⟩
      · exact ih
      · rcases v with _ | _ | _ | _ | _ | _ | _ | _ | _ | _ | _ | tb | _ | _
        case table => rcases tb with ⟨c, _, _, _, _, _⟩; exact congrArg (c.body ++ ·) ih
        all_goals exact ih
    · rw [if_neg h]
      rcases b[i]? with _ | ⟨k, v⟩
      · exact ih
      · rcases v with _ | _ | _ | _ | _ | _ | _ | _ | _ | _ | _ | tb | _ | _
        case table => exact congrArg (tb.cont.body ++ ·) ih
        all_goals exact ih

theorem readCont_reind {c : Cont} {l : List PyPair} (h : ReadCont c l) (f : Trivia → Trivia) (j : Nat) : ReadCont (c.reind f j) l := by
  refine ⟨h.parsed, h.wf.of_shape (setTriviaAt_shape _ _ _) _ _, h.dict, fun k w hm => ?_⟩
  cases h.holds k w hm with
  | one i hi hw =>
    obtain ⟨n, e, g1, g2, g3⟩ := item_single.1 hi
    by_cases hj : j = n
    · refine .one (i.setTrivia (f i.trivia)) (item_single.2 ⟨n, .mk e.key (e.v.setTrivia (f e.v.trivia)), g1, ?_, ?_⟩) (means_setTrivia _ hw)
      · show (setTriviaAt j f c.body)[n]? = _
        rw [reind_at, if_pos hj, g2]; rfl
      · rw [← g3]; rfl
    · refine .one i (item_single.2 ⟨n, e, g1, ?_, g3⟩) hw
      show (setTriviaAt j f c.body)[n]? = _
      rw [reind_at, if_neg hj, g2]
  | parts is U l' hi hw hU hn =>
    refine .parts is U l' (item_parts (c' := c.reind f j) (Cont.map_mk ..) hi) hw ?_ hn
    show DotEnts Means U ((tablesAt (setTriviaAt j f c.body) is).flatMap fun t => t.cont.body)
    rw [reind_tables]; exact hU

theorem setTriviaAt_last (b : List Entry) (e : Entry) (f : Trivia → Trivia) :
    setTriviaAt b.length f (b ++ [e]) = b ++ [.mk e.key (e.v.setTrivia (f e.v.trivia))] := by
  unfold setTriviaAt
  induction b with
  | nil => rfl
  | cons x b ih => simpa using ih

theorem plus_reind (base : Cont) (k : SKey) (v : Item) (f : Trivia → Trivia) :
    (base.plus k v).reind f base.body.length = base.plus k (v.setTrivia (f v.trivia)) := by
  unfold Cont.reind Cont.plus setTriviaAt
  simp only [Cont.body_mk, Cont.map_mk, Cont.dict_mk, Cont.parsed_mk, Cont.tableKeys_mk, Item.isTable_setTrivia]
  congr 1
  have := setTriviaAt_last base.body (.mk (some k) v) f
  unfold setTriviaAt at this
  exact this

/-- the last entry of the key is no boolean -/
def Settled (k : Str) (c : Cont) : Prop := ∃ j e, mapGet k c.map = some [j] ∧ c.body[j]? = some e ∧ e.v.isBool = false

theorem settled_plus (base : Cont) (k : SKey) {v : Item} (hv : v.isBool = false) : Settled k.key (base.plus k v) :=
  ⟨_, .mk (some k) v, plus_get _ _ _, by simp [Cont.plus], hv⟩

/-- what is known of a container stays true when the entry of this key is indented -/
def Reind (P : Cont → Prop) (k : Str) : Prop := ∀ (c : Cont) (f : Trivia → Trivia) (j : Nat), P c → mapGet k c.map = some [j] → P (c.reind f j)

/-! ## Spines -/

/-- The container `c` has an open path of implicit tables: each frame gives a key and the data that precede it. `P` is what
is known of the innermost container. From some frame on nothing may exist yet. -/
inductive Spine (P : Cont → Prop) : Cont → List (Str × List PyPair) → Prop
  | here {c : Cont} (h : P c) : Spine P c []
  | into {base c : Cont} {sk : SKey} {tb : Tbl} {k : Str} {l1 : List PyPair} {fr : List (Str × List PyPair)} (hc : c = base.plus sk (.table tb))
      (hkey : k = sk.key) (hb : ReadCont base l1) (gb : base.Good PW) (hd : sk.dotted = false) (hk : sk.key ∉ l1.map PyPair.key) (hs : tb.superFlag = some true) (ha : tb.isAot = false) (h : Spine P tb.cont fr) : Spine P c ((k, l1) :: fr)
  | fresh {c : Cont} {k : Str} {l1 : List PyPair} {fr : List (Str × List PyPair)} (h : ReadCont c l1) (hk : k ∉ l1.map PyPair.key)
      (hfr : ∀ p ∈ fr, p.2 = []) (hP : P (Cont.empty true)) : Spine P c ((k, l1) :: fr)

theorem readCont_nil {l : List PyPair} (h : ReadCont (Cont.empty true) l) : l = [] := by
  have := h.dict
  cases l with
  | nil => rfl
  | cons => cases this

/-- a new implicit table may follow -/
theorem Spine.open {l : List PyPair} {c : Cont} {fr : List (Str × List PyPair)} (h : Spine (ReadCont · l) c fr) {k : Str}
    (hk : k ∉ l.map PyPair.key) : Spine (ReadCont · []) c (fr ++ [(k, l)]) := by
  induction h with
  | here h => exact .fresh h hk (fun p hp => by cases hp) readCont_empty
  | into hc hkey hb gb hd hk' hs ha _ ih => exact .into hc hkey hb gb hd hk' hs ha ih
  | fresh h hk' hfr hP =>
    cases readCont_nil hP
    refine .fresh h hk' (fun p hp => ?_) hP
    rcases List.mem_append.1 hp with hp | hp
    · exact hfr p hp
    · rw [List.mem_singleton] at hp; subst hp; rfl

theorem means_super {tb : Tbl} {l : List PyPair} (h : ReadCont tb.cont l) : Means (.dict l) (.table tb) :=
  means_dict rfl h.dict h.holds

/-- an implicit table is complete -/
theorem Spine.close {l l1 : List PyPair} (hne : l ≠ []) {k : Str} : ∀ {fr : List (Str × List PyPair)} {c : Cont},
    Spine (ReadCont · l) c (fr ++ [(k, l1)]) → Spine (ReadCont · (l1 ++ [.mk k (.dict l)])) c fr
  | [], c, h => by
    cases h with
    | into hc hkey hb gb hd hk hs ha h =>
      subst hc hkey
      cases h with
      | here h => exact .here (readCont_plus hb hk (means_super h))
    | fresh h hk hfr hP => exact absurd (readCont_nil hP) hne
  | f :: fr, c, h => by
    rw [List.cons_append] at h
    cases h with
    | into hc hkey hb gb hd hk hs ha h => exact .into hc hkey hb gb hd hk hs ha (Spine.close hne h)
    | fresh h hk hfr hP => exact absurd (readCont_nil hP) hne

/-- a table that was found, wrapped into its implicit parents -/
inductive IsPiece (leaf : Item) : List Str → Item → Prop
  | leaf : IsPiece leaf [] leaf
  | wrap {p : SKey} {inner : Item} {r : List Str} (t : Trivia) (nm : Str) (hd : p.dotted = false)
      (h : IsPiece leaf r inner) : IsPiece leaf (p.key :: r) (.table (wrapOne p inner t false nm))

theorem IsPiece.name {leaf item : Item} {r : List Str} (h : IsPiece leaf r item) (hl : leaf.name?.isSome = true) : item.name?.isSome = true := by
  cases h with
  | leaf => exact hl
  | wrap => rfl

theorem IsPiece.good {leaf item : Item} {r : List Str} (h : IsPiece leaf r item) (hl : leaf.Good PW) : item.Good PW := by
  induction h with
  | leaf => exact hl
  | @wrap p inner r t nm hd h ih =>
    show Tbl.Good PW (wrapOne p inner t false nm)
    rw [Tbl.good_iff]
    unfold wrapOne
    rw [Cont.good_iff]
    refine ⟨closed_PW.one _ _, fun e he => ?_⟩
    simp only [Tbl.cont, Cont.body_mk, List.mem_singleton] at he
    subst he; exact ih

theorem one_plus (p : SKey) (v : Item) (t : Trivia) (a : Bool) (nm : Str) : (wrapOne p v t a nm).cont = (Cont.empty true).plus p v := by
  unfold wrapOne Cont.plus Cont.empty
  simp [Tbl.cont, dictSet, mapSet]

/-- what appending the leaf to the innermost container does -/
def LeafStep (P P' : Cont → Prop) (k : Str) (leaf : Item) : Prop :=
  ∀ (c : Cont) (sk : SKey) (n : Nat) (b : Bool), P c → c.Good PW → sk.key = k → sk.dotted = false →
    ∃ c' mv, Cont.append1 (n + 2) false b c (some sk) leaf = .ok (c', mv) ∧ P' c' ∧ Settled k c'

theorem spine_one {P P' : Cont → Prop} {k : Str} {leaf : Item} (hS : LeafStep P P' k leaf) (hn : leaf.name?.isSome = true)
    (hP : P (Cont.empty true)) {p : SKey} {r : List Str} {inner : Item} (hp : p.dotted = false) (h : IsPiece leaf r inner)
    {fr : List (Str × List PyPair)} (hfr : ∀ q ∈ fr, q.2 = []) (he : p.key :: r = fr.map Prod.fst ++ [k]) :
    Spine P' ((Cont.empty true).plus p inner) fr := by
  induction h generalizing p fr with
  | leaf =>
    cases fr with
    | nil =>
      simp only [List.map_nil, List.nil_append, List.cons.injEq, and_true] at he
      obtain ⟨c', mv, h1, h2, _⟩ := hS _ p 0 true hP ((Cont.good_iff _).2 ⟨closed_PW.empty, by intro e he; cases he⟩) he hp
      rw [append1_plus readCont_empty (by simp), named_same p hn] at h1
      cases h1
      exact .here h2
    | cons f fr =>
      simp only [List.map_cons, List.cons_append, List.cons.injEq] at he
      have := he.2
      simp at this
  | @wrap q inner r t nm hd h ih =>
    cases fr with
    | nil => simp at he
    | cons f fr =>
      obtain ⟨f1, f2⟩ := f
      simp only [List.map_cons, List.cons_append, List.cons.injEq] at he
      have h2 : f2 = [] := hfr (f1, f2) (List.mem_cons_self ..)
      have h1 := he.1
      subst h2 h1
      refine .into rfl rfl readCont_empty ((Cont.good_iff _).2 ⟨closed_PW.empty, by intro e he; cases he⟩) hp (by simp) rfl rfl ?_
      rw [one_plus]
      exact ih hd (fun x hx => hfr x (List.mem_cons_of_mem _ hx)) he.2

theorem spine_deepCopy {P : Cont → Prop} (hP : ∀ c, P c → c.Good PW → P c.deepCopy) {c : Cont} {fr : List (Str × List PyPair)}
    (h : Spine P c fr) (hg : c.Good PW) : Spine P c.deepCopy fr := by
  induction h with
  | here h => exact .here (hP _ h hg)
  | @into base c sk tb k l1 fr hc hkey hb gb hd hk hs ha h ih =>
    subst hc hkey
    have htb : tb.Good PW := by
      have := ((Cont.good_iff _).1 hg).2 (.mk (some sk) (.table tb)) (by simp [Cont.plus])
      exact this
    have e : (Item.table tb).deepCopy = .table tb.deepCopy := by unfold Item.deepCopy; rfl
    have ef := Tbl.deepCopy_fields tb
    refine .into (by rw [deepCopy_plus, e]) rfl (readCont_deepCopy hb gb) (Cont.deepCopy_good closed_PW _ gb) hd hk ?_ ?_ ?_
    · rw [ef]; exact hs
    · rw [ef]; exact ha
    · rw [ef]
      exact ih ((Tbl.good_iff tb).1 htb)
  | fresh h hk hfr hP' => exact .fresh (readCont_deepCopy h hg) hk hfr hP'

theorem plus_set (base : Cont) (sk : SKey) (v v' : Item) (hv : v'.isTable = v.isTable) :
    Cont.mk ((base.plus sk v).body.set base.body.length (.mk (some sk) v')) (base.plus sk v).map (base.plus sk v).dict (base.plus sk v).parsed
      (base.plus sk v).tableKeys = base.plus sk v' := by
  unfold Cont.plus
  simp [hv]

theorem spine_reind {P : Cont → Prop} {k : Str} (hre : Reind P k) {c : Cont} {fr : List (Str × List PyPair)} (h : Spine P c fr) {f : Trivia → Trivia}
    {j : Nat} {s : Str} (hs : (fr.map Prod.fst ++ [k]).head? = some s) (hj : mapGet s c.map = some [j]) : Spine P (c.reind f j) fr := by
  cases h with
  | here h =>
    cases hs
    exact .here (hre c f j h hj)
  | @into base _ sk tb _ _ _ hc hkey hb gb hd hk hs' ha h =>
    subst hc hkey
    cases hs
    rw [plus_get] at hj
    cases hj
    rw [plus_reind]
    refine .into rfl rfl hb gb hd hk ?_ ?_ ?_
    · rcases tb with ⟨_, _, _, _, _, _⟩; exact hs'
    · rcases tb with ⟨_, _, _, _, _, _⟩; exact ha
    · rcases tb with ⟨_, _, _, _, _, _⟩; exact h
  | fresh h hk hfr hP => exact .fresh (readCont_reind h f j) hk hfr hP

/-- a piece is appended at the place its path names -/
theorem spine_append {P P' : Cont → Prop} (hcopy : ∀ c, P c → c.Good PW → P c.deepCopy) {k : Str} {leaf : Item} (hS : LeafStep P P' k leaf)
    (hre : Reind P' k) :
    ∀ {fr : List (Str × List PyPair)} {c : Cont} (_ : Spine P c fr) (_ : c.Good PW) {sk : SKey} {r : List Str} {item : Item}
      (_ : IsPiece leaf r item) (_ : sk.key :: r = fr.map Prod.fst ++ [k]) (_ : sk.dotted = false) (_ : fr ≠ [] → leaf.name?.isSome = true)
      (n : Nat) (_ : 2 * fr.length + 2 ≤ n) (b : Bool),
      ∃ c' mv, Cont.append1 n false b c (some sk) item = .ok (c', mv) ∧ Spine P' c' fr ∧ Settled sk.key c'
  | [], c, h, hg, sk, r, item, hi, he, hd, _, n, hn, b => by
    cases h with
    | here h =>
    simp only [List.map_nil, List.nil_append, List.cons.injEq] at he
    obtain ⟨he, rfl⟩ := he
    cases hi
    obtain ⟨m, rfl⟩ : ∃ m, n = m + 2 := ⟨n - 2, by simp at hn; omega⟩
    obtain ⟨c', mv, h1, h2, h3⟩ := hS _ sk m b h hg he hd
    exact ⟨c', mv, h1, .here h2, by rw [he]; exact h3⟩
  | (k1, l1) :: fr, c, h, hg, sk, r, item, hi, he, hd, hnm0, n, hn, b => by
    have hnm : leaf.name?.isSome = true := hnm0 (by simp)
    clear hnm0
    cases h with
    | fresh h hk hfr hP =>
      simp only [List.map_cons, List.cons_append, List.cons.injEq] at he
      obtain ⟨m, rfl⟩ : ∃ m, n = m + 2 := ⟨n - 2, by simp at hn; omega⟩
      have hk1 := he.1
      subst hk1
      rw [append1_plus h hk, named_same sk (hi.name hnm)]
      refine ⟨_, _, rfl, ?_, settled_plus _ _ (by cases hi with
        | leaf => exact absurd he.2 (by simp)
        | wrap => rfl)⟩
      cases hi with
      | leaf => exact absurd he.2 (by simp)
      | @wrap q inner r t nm hqd h' =>
        refine .into rfl rfl h hg hd hk rfl rfl ?_
        rw [one_plus]
        exact spine_one hS hnm hP hqd h' hfr he.2
    | @into base _ sk0 tb _ _ _ hc hkey hb gb hd0 hk0 hs ha h =>
      subst hc hkey
      simp only [List.map_cons, List.cons_append, List.cons.injEq] at he
      obtain ⟨m, rfl⟩ : ∃ m, n = m + 4 := ⟨n - 4, by simp at hn; omega⟩
      obtain ⟨hek, he⟩ := he
      cases hi with
      | leaf => exact absurd he (by simp)
      | @wrap q inner r t nm hqd h' =>
        have hpar : (base.plus sk0 (.table tb)).parsed = true := hb.parsed
        have hget : mapGet sk.key (base.plus sk0 (.table tb)).map = some [base.body.length] := by rw [hek]; exact plus_get _ _ _
        have hlast : (base.plus sk0 (.table tb)).lastEntry sk.key = some (base.body.length, .mk (some sk0) (.table tb)) := by
          unfold Cont.lastEntry
          rw [hget]
          simp [Cont.plus]
        have htk : (base.plus sk0 (.table tb)).tableKeys.getLast? = some sk0.key := by
          unfold Cont.plus; simp [Item.isTable, Cont.tableKeys]
        have htb : tb.Good PW := by
          have := ((Cont.good_iff _).1 hg).2 (.mk (some sk0) (.table tb)) (by simp [Cont.plus])
          exact this
        have hsup : tb.isSuper = true := by unfold Tbl.isSuper; rw [hs]
        have hsup' : (wrapOne q inner t false nm).isSuper = true := by unfold Tbl.isSuper wrapOne; rfl
        have haot' : (wrapOne q inner t false nm).isAot = false := rfl
        have ef := Tbl.deepCopy_fields tb
        have hgc := Cont.deepCopy_good closed_PW _ ((Tbl.good_iff tb).1 htb)
        have hdc : tb.deepCopy.cont = tb.cont.deepCopy := by rw [ef]; rfl
        have hsp := spine_deepCopy hcopy h ((Tbl.good_iff tb).1 htb)
        obtain ⟨c0, mv0, h1, h2, j, e0, h3, h4, h5⟩ := spine_append hcopy hS hre hsp hgc h' he hqd (fun _ => hnm) (m + 2) (by simp at hn; omega) true
        obtain ⟨c1, mv, h2, hT⟩ : ∃ c1 mv, Spine P' c1 fr ∧ Tbl.append1 (m + 3) false tb.deepCopy (some q) inner = .ok (tb.deepCopy.setCont c1, mv) := by
          rw [Tbl.append1, hdc, h1]
          dsimp only
          rw [has_single h3]
          dsimp only
          rcases spaceRun tb.deepCopy.trivia.indent with _ | ind
          · exact ⟨c0, mv0, h2, rfl⟩
          · simp only [Bool.false_and, Bool.false_eq_true, if_false]
            rw [h3]
            simp only [Option.bind_some, h4, Option.map_some, h5, Bool.false_and, Bool.false_eq_true, if_false]
            by_cases hws : e0.v.isWhitespace = true
            · rw [if_pos hws]; exact ⟨c0, mv0, h2, rfl⟩
            · rw [if_neg hws]
              exact ⟨c0.reind _ j, true, spine_reind hre h2 (by
                cases fr with
                | nil => simp at he; simpa using he.1.symm
                | cons f fr => simp at he; simpa using he.1.symm) h3, rfl⟩
        have hres : ∃ mv', Cont.append1 (m + 4) false b (base.plus sk0 (.table tb)) (some sk) (.table (wrapOne q inner t false nm)) =
            .ok (base.plus sk0 (.table (tb.deepCopy.setCont c1)), mv') := by
          rw [Cont.append1]
          simp only [Bool.false_and, Bool.false_eq_true, if_false]
          rw [prepare_named hpar, named_same sk (v := .table (wrapOne q inner t false nm)) rfl]
          dsimp only
          rw [has_single hget, hlast]
          dsimp only
          rw [if_neg (by simp [Entry.v, Item.isTableLike, Item.isTable]), haot']
          simp only [Bool.false_eq_true, if_false, Entry.v, hsup, hsup', if_true, hd, isDottedKey, Entry.key, hd0, Bool.or_self, htk, hek,
            beq_self_eq_true, Bool.not_true]
          have hf : foldE (fun (p : Tbl × Bool) (e : Entry) => (Tbl.append1 (m + 3) false p.1 e.key e.v).map fun q => (q.1, p.2 || q.2))
              (tb.deepCopy, false) (wrapOne q inner t false nm).cont.body = .ok (tb.deepCopy.setCont c1, false || mv) := by
            unfold wrapOne
            simp only [Tbl.cont, Cont.body_mk, foldE, Entry.key, Entry.v, hT]
            rfl
          have hf' := hf
          simp only [Entry.key, Entry.v] at hf'
          first
            | rw [hf']
            | rw [hf]
          dsimp only
          have hps := plus_set base sk0 (.table tb) (.table (tb.deepCopy.setCont c1)) rfl
          exact ⟨_, congrArg (fun z => Except.ok (z, _)) hps⟩
        obtain ⟨mv', hres⟩ := hres
        refine ⟨_, mv', hres, ?_, by rw [hek]; exact settled_plus _ _ rfl⟩
        refine .into rfl rfl hb gb hd0 hk0 ?_ ?_ ?_
        · rw [ef]; exact hs
        · rw [ef]; exact ha
        · rw [setCont_cont]; exact h2

end Tomlkit
