import Verif.Proofs.DocText
import Verif.Props.Readback
/-!
# Converting a mapping gives tables whose text can be read
-/
namespace Tomlkit
open _root_.Spec Tomlkit.Spec

/-- the name, the trivia or the kind of the table changed -/
theorem TblTxt.reset {c : Cont} {t t' : Trivia} {a a' : Bool} {s : Option Bool} {n n' d : Option Str} {l : List PyPair}
    (h : TblTxt (.mk c t a s n d) l) (h1 : t'.commentWs = []) (h2 : t'.comment = []) (h3 : t'.trail = [10]) (h4 : Nls t'.indent) :
    TblTxt (.mk c t' a' s n' d) l := by
  refine ⟨h.flag, h.display, h1, h2, h3, h4, ?_, h.ex, h.count, h.once⟩
  have := h.inval
  rcases c with ⟨b, m, dd, p, tk⟩
  unfold Tbl.invalidate at this ⊢
  simp only [Tbl.mk.injEq, Cont.mk.injEq, and_true, true_and] at this ⊢
  exact this

theorem TblTxt.setIndent {tb : Tbl} {l : List PyPair} (h : TblTxt tb l) {ind : Str} (hi : Nls ind) :
    TblTxt (tb.setTrivia { tb.trivia with indent := ind }) l := by
  rcases tb with ⟨c, t, a, s, n, d⟩
  exact h.reset h.cws h.comment h.trail hi

theorem TblsTxt.inval {ts : List Tbl} {ls : List PyVal} (h : TblsTxt ts ls) : invalidateAll ts = ts := by
  induction h with
  | nil => rfl
  | cons h1 _ ih => unfold invalidateAll; rw [ih, h1.inval]

theorem TblsTxt.snoc {ts : List Tbl} {ls : List PyVal} (h : TblsTxt ts ls) {t : Tbl} {d : List PyPair} (ht : TblTxt t d) :
    TblsTxt (ts ++ [t]) (ls ++ [.dict d]) := by
  induction h with
  | nil => exact .cons ht .nil
  | cons h1 _ ih => exact .cons h1 ih

theorem nls_one : Nls [10] := fun x hx => by simpa using hx

/-- the kinds of converted values -/
inductive ItemTxt : Item → PyVal → Prop
  | line {i : Item} {w : PyVal} (h : Fresh False w i) (ht : i.trivia.trail = [10]) : ItemTxt i w
  | table {tb : Tbl} {l : List PyPair} (h : TblTxt tb l) (ha : tb.isAot = false) : ItemTxt (.table tb) (.dict l)
  | aot {ts : List Tbl} {ls : List PyVal} {t : Trivia} {nm : Option Str} {pr : Bool} (h : TblsTxt ts ls) (hne : ls ≠ []) :
      ItemTxt (.aot ts t nm pr) (.list ls)

theorem prep_table {c : Cont} (hc : c.parsed = false) {tb : Tbl} {l : List PyPair} (h : TblTxt tb l) (ha : tb.isAot = false) (k : SKey) :
    ∃ tb', c.prepare (some k) (.table tb) = .ok (.table tb') ∧ TblTxt tb' l ∧ tb'.isAot = false := by
  have hn : ∃ tb1, (if (Item.table tb).isTableLike && (Item.table tb).name?.isNone then (some k).map fun k => (Item.table tb).setName k.key
      else some (.table tb)) = some (.table tb1) ∧ TblTxt tb1 l ∧ tb1.isAot = false := by
    split
    · rcases tb with ⟨c, t, a, s, n, d⟩
      exact ⟨_, rfl, h.reset h.cws h.comment h.trail h.indent, ha⟩
    · exact ⟨_, rfl, h, ha⟩
  obtain ⟨tb1, e1, e2, e3⟩ := hn
  unfold Cont.prepare
  rw [e1]
  dsimp only
  simp only [hc, Bool.false_eq_true, if_false, e2.inval]
  split
  · refine ⟨_, rfl, e2.setIndent nls_one, ?_⟩
    rcases tb1 with ⟨c, t, a, s, n, d⟩; exact e3
  · exact ⟨_, rfl, e2, e3⟩

theorem prep_aot {c : Cont} {ts : List Tbl} {ls : List PyVal} (h : TblsTxt ts ls) (t : Trivia) (nm : Option Str) (pr : Bool) (k : SKey) :
    ∃ ts' nm', c.prepare (some k) (.aot ts t nm pr) = .ok (.aot ts' t nm' pr) ∧ TblsTxt ts' ls := by
  have hn : ∃ nm1, (if (Item.aot ts t nm pr).isTableLike && (Item.aot ts t nm pr).name?.isNone then (some k).map fun k => (Item.aot ts t nm pr).setName k.key
      else some (.aot ts t nm pr)) = some (.aot ts t nm1 pr) := by
    split
    · exact ⟨_, rfl⟩
    · exact ⟨_, rfl⟩
  obtain ⟨nm1, e1⟩ := hn
  unfold Cont.prepare
  rw [e1]
  dsimp only
  rw [h.inval]
  split
  · cases h with
    | nil => exact ⟨_, _, rfl, .nil⟩
    | cons h1 h2 =>
      dsimp only
      split
      · exact ⟨_, _, rfl, .cons h1 h2⟩
      · exact ⟨_, _, rfl, .cons (h1.setIndent (fun x hx => by
          rcases List.mem_cons.1 hx with rfl | hx
          · rfl
          · exact h1.indent x hx)) h2⟩
  · exact ⟨_, _, rfl, h⟩

theorem inval_noTable {i : Item} (h : i.isTableLike = false) : i.invalidate = i := by
  rcases i with _ | _ | _ | _ | _ | _ | _ | _ | _ | _ | _ | tb | ⟨ts, t, nm, p⟩ | _ <;>
    first | rfl | (simp [Item.isTableLike, Item.isTable, Item.isAoT] at h; done)

/-- the state while the items of a dict are assigned -/
structure Sofar (R : Str → PyVal → Prop) (c : Cont) (ps ts : List Entry) (l1 l2 : List PyPair) : Prop where
  built : Built c ps ts
  lines : LineEnts ps l1
  subs : SubEnts ts l2
  inval : ∀ e ∈ c.body, e.v.invalidate = e.v
  count : c.dict.length = c.body.length
  keys : ((l1 ++ l2).map PyPair.key).Perm c.dict
  from_ : ∀ k w, .mk k w ∈ l1 ++ l2 → R k w

theorem sofar_step {R : Str → PyVal → Prop} {c : Cont} {ps ts : List Entry} {l1 l2 : List PyPair} (h : Sofar R c ps ts l1 l2) {k : Str} {i : Item}
    {w : PyVal} (hi : ItemTxt i w) (hR : R k w) (hk : k ∉ c.dict) :
    ∃ c' ps' ts' l1' l2', c.setItemIndented [] k i = .ok c' ∧ Sofar R c' ps' ts' l1' l2' ∧ c'.dict = c.dict ++ [k] := by
  have hm : mapGet k c.map = none := by
    rcases hm : mapGet k c.map with _ | is
    · rfl
    · exact absurd ((h.built.wf.dictMem _).2 (by rw [hm]; rfl)) hk
  have hsub : ∀ i' : Item, c.prepare (some (mkKey k)) i = .ok i' → i'.isTableLike = true → SubTxt k i' w → i'.invalidate = i' →
      ∃ c' ps' ts' l1' l2', c.setItemIndented [] k i = .ok c' ∧ Sofar R c' ps' ts' l1' l2' ∧ c'.dict = c.dict ++ [k] := by
    intro i' h1 h2 h3 h4
    obtain ⟨c', e1, e2, e3⟩ := built_table h.built hm h1 h2
    refine ⟨c', ps, _, l1, l2 ++ [.mk k w], e1, ⟨e2, h.lines, h.subs.append (.cons h3 .nil), ?_, ?_, ?_, ?_⟩, e3⟩
    · intro e he
      rw [e2.body, ← List.append_assoc, ← h.built.body] at he
      rcases List.mem_append.1 he with he | he
      · exact h.inval e he
      · rw [List.mem_singleton] at he; subst he; exact h4
    · rw [e2.body, ← List.append_assoc, ← h.built.body, e3]; simp [h.count]
    · rw [← List.append_assoc, List.map_append, e3]; exact h.keys.append_right _
    · intro k' w' hm'
      rw [← List.append_assoc] at hm'
      rcases List.mem_append.1 hm' with hm' | hm'
      · exact h.from_ k' w' hm'
      · rw [List.mem_singleton] at hm'; cases hm'; exact hR
  cases hi with
  | line hf ht =>
    obtain ⟨k1, k2, k3⟩ := hf.lit.kind
    obtain ⟨c', e1, e2, e3⟩ := built_plain h.built hm k3 k2 k1
    rw [h.lines.closeLine] at e2
    refine ⟨c', _, ts, l1 ++ [.mk k w], l2, e1, ⟨e2, h.lines.append (.cons hf ht .nil), h.subs, ?_, ?_, ?_, ?_⟩, e3⟩
    · intro e he
      rw [e2.body] at he
      have : e ∈ c.body ∨ e = .mk (some (mkKey k)) i := by
        rw [h.built.body]; simp only [List.mem_append, List.mem_singleton] at he ⊢
        rcases he with (he | he) | he
        · exact .inl (.inl he)
        · exact .inr he
        · exact .inl (.inr he)
      rcases this with he | rfl
      · exact h.inval e he
      · exact inval_noTable k3
    · have := congrArg List.length h.built.body
      rw [e2.body, e3]
      simp only [List.length_append, List.length_cons, List.length_nil] at this ⊢
      rw [h.count, this]; omega
    · rw [e3]
      have h0 := h.keys
      simp only [List.map_append, List.map_cons, List.map_nil, PyPair.key_mk] at h0 ⊢
      refine List.Perm.trans ?_ (h0.append_right [k])
      rw [List.append_assoc, List.append_assoc]
      exact List.Perm.append_left _ List.perm_append_comm
    · intro k' w' hm'
      simp only [List.mem_append, List.mem_singleton] at hm'
      rcases hm' with (hm' | hm') | hm'
      · exact h.from_ k' w' (by simp [hm'])
      · cases hm'; exact hR
      · exact h.from_ k' w' (by simp [hm'])
  | table hT ha =>
    obtain ⟨tb', e1, e2, e3⟩ := prep_table h.built.parsed hT ha (mkKey k)
    exact hsub _ e1 rfl (subTxt_table e2 e3 k) (by unfold Item.invalidate; rw [e2.inval])
  | aot hT hne =>
    obtain ⟨ts', nm', e1, e2⟩ := prep_aot (c := c) hT _ _ _ (mkKey k)
    exact hsub _ e1 rfl (subTxt_aot e2 hne _ _ _ k) (by unfold Item.invalidate; rw [e2.inval])

theorem sofar_fold {R : Str → PyVal → Prop} (cs : List Child) : ∀ {c : Cont} {ps ts : List Entry} {l1 l2 : List PyPair}, Sofar R c ps ts l1 l2 →
    (∀ ch ∈ cs, ∃ w, ItemTxt ch.item w ∧ R ch.key w) → (c.dict ++ cs.map Child.key).Nodup →
    ∃ c' ps' ts' l1' l2', foldE (fun c ch => c.setItemIndented [] (Child.key ch) ch.item) c cs = .ok c' ∧ Sofar R c' ps' ts' l1' l2' ∧
      c'.dict = c.dict ++ cs.map Child.key := by
  induction cs with
  | nil => intro c ps ts l1 l2 h _ _; exact ⟨c, ps, ts, l1, l2, rfl, h, by simp⟩
  | cons x r ih =>
    intro c ps ts l1 l2 h hc hd
    obtain ⟨w, hw, hR⟩ := hc x (by simp)
    have hx : x.key ∉ c.dict := by
      rw [List.nodup_append] at hd
      intro hm
      exact hd.2.2 _ hm x.key (by simp) rfl
    obtain ⟨c1, ps1, ts1, m1, m2, e1, e2, e3⟩ := sofar_step h hw hR hx
    obtain ⟨c2, ps2, ts2, n1, n2, f1, f2, f3⟩ := ih e2 (fun ch hm => hc ch (by simp [hm])) (by rw [e3]; simpa using hd)
    exact ⟨c2, ps2, ts2, n1, n2, by unfold foldE; rw [e1]; exact f1, f2, by rw [f3, e3]; simp⟩

theorem sofar_empty (R : Str → PyVal → Prop) : Sofar R (Cont.empty false) [] [] [] [] :=
  ⟨built_empty, .nil, .nil, (fun e he => by cases he), rfl, List.Perm.refl _, (fun k w h => by cases h)⟩

theorem invalBody_id (m : List (Str × List Nat)) (b : List Entry) (h : ∀ e ∈ b, e.v.invalidate = e.v) : ∀ i, invalidateBody m i b = b := by
  induction b with
  | nil => intro i; rfl
  | cons e r ih =>
    intro i
    unfold invalidateBody
    rw [ih (fun e he => h e (by simp [he]))]
    have he := h e (by simp)
    rcases e with ⟨_ | k, v⟩
    · rfl
    · unfold Entry.invalidate
      simp only [Entry.v] at he
      rw [he, ite_self]

theorem Sofar.tbl {R : Str → PyVal → Prop} {c : Cont} {ps ts : List Entry} {l1 l2 : List PyPair} (h : Sofar R c ps ts l1 l2) (hd : c.dict.Nodup)
    (a : Bool) : TblTxt (.mk c {} a none none none) (l1 ++ l2) := by
  refine ⟨rfl, rfl, rfl, rfl, rfl, (fun x hx => by cases hx), ?_, ⟨ps, ts, l1, l2, rfl, h.built, h.lines, h.subs⟩, h.count, h.keys.nodup_iff.2 hd⟩
  have := h.inval
  rcases c with ⟨b, m, dd, p, tk⟩
  unfold Tbl.invalidate
  rw [invalBody_id m b this]

/-- a table built from the items of a dict, in any order -/
theorem dict_txt {l : List PyPair} (hd : (l.map PyPair.key).Nodup) {cs cs' : List Child} (hcs : cs.map Child.key = l.map PyPair.key)
    (hp : cs'.Perm cs) (hh : ∀ ch ∈ cs, ∃ v w, .mk ch.key v ∈ l ∧ Same v w ∧ ItemTxt ch.item w) (a : Bool) :
    ∃ tb l', buildTable a cs' = .ok tb ∧ TblTxt tb l' ∧ tb.isAot = a ∧ Same (.dict l) (.dict l') := by
  have hkeys : (cs'.map Child.key).Perm (l.map PyPair.key) := by rw [← hcs]; exact hp.map _
  obtain ⟨c, ps, ts, l1, l2, e1, e2, e3⟩ := sofar_fold (R := fun k w => ∃ v, .mk k v ∈ l ∧ Same v w) cs' (sofar_empty _) (by
    intro ch hc
    obtain ⟨v, w, h1, h2, h3⟩ := hh ch (hp.mem_iff.1 hc)
    exact ⟨w, h3, v, h1, h2⟩) (by
      show ([] ++ cs'.map Child.key).Nodup
      rw [List.nil_append]; exact hkeys.nodup_iff.2 hd)
  have e3' : c.dict = cs'.map Child.key := e3
  refine ⟨_, l1 ++ l2, ?_, e2.tbl (by rw [e3']; exact hkeys.nodup_iff.2 hd) a, rfl, ?_⟩
  · unfold buildTable
    rw [buildTable_eq, e1]; rfl
  · have hkk : ((l1 ++ l2).map PyPair.key).Perm (l.map PyPair.key) := by
      refine e2.keys.trans ?_; rw [e3']; exact hkeys
    unfold Same
    refine ⟨_, rfl, ?_, sameIn_of ?_⟩
    · have := hkk.length_eq
      rw [List.length_map, List.length_map] at this; exact this.symm
    · intro k v hv
      have hk : k ∈ (l1 ++ l2).map PyPair.key := hkk.mem_iff.2 (List.mem_map.2 ⟨_, hv, rfl⟩)
      obtain ⟨⟨k', w⟩, hw, rfl⟩ := List.mem_map.1 hk
      obtain ⟨v', h1, h2⟩ := e2.from_ _ w hw
      rw [PyPair.key_mk] at hv
      rw [pair_unique hd hv h1]
      exact ⟨w, hw, h2⟩

theorem aotAppend_txt {ts : List Tbl} {ls : List PyVal} (h : TblsTxt ts ls) {t : Tbl} {d : List PyPair} (ht : TblTxt t d) :
    TblsTxt (aotAppend { trail := [] } false ts t) (ls ++ [.dict d]) := by
  have hnl : TblTxt (nlIndent t) d := by
    unfold nlIndent
    split
    · exact ht
    · exact ht.setIndent (fun x hx => by
          rcases List.mem_cons.1 hx with rfl | hx
          · rfl
          · exact ht.indent x hx)
  have hcl : clampIndex (ts.length : Int) ts.length = ts.length := by
    unfold clampIndex
    have h1 : ¬ ((ts.length : Int) < 0) := by omega
    simp only [h1, if_false]
    rw [if_pos (by omega)]
  have hins : ∀ x : Tbl, ts.insertIdx ts.length x = ts ++ [x] := by
    intro x
    have := insertIdx_take ts [] x rfl
    rwa [List.append_nil] at this
  have hs : spaceRun [] = none := rfl
  unfold aotAppend aotInsert
  rw [hcl]
  dsimp only
  rw [hs]
  dsimp only
  have hno : (decide (ts.length + 1 < ts.length) && ((ts[ts.length + 1]?).map Tbl.truthy).getD false) = false := by simp
  rw [if_neg (by simp), if_neg (by rw [hno]; simp), hins]
  refine h.snoc ?_
  split
  · split
    · exact hnl
    · exact ht
  · exact ht

theorem aotFold_txt : ∀ (ts acc : List Tbl) (ls l0 : List PyVal), TblsTxt ts ls → TblsTxt acc l0 →
    TblsTxt (ts.foldl (aotAppend { trail := [] } false) acc) (l0 ++ ls)
  | [], acc, _, l0, .nil, h0 => by rw [List.append_nil]; exact h0
  | t :: ts, acc, _, l0, .cons ht h, h0 => by
    rw [List.foldl_cons, List.append_cons]
    exact aotFold_txt ts _ _ _ h (aotAppend_txt h0 ht)

theorem plain_trivia {v : PyVal} {s : Bool} {p : Parent} {i : Item} (h : v.toItem s p = .ok i) (ht : i.isTableLike = false) : i.trivia.trail = [10] := by
  rcases v with _ | _ | _ | _ | _ | _ | _ | _ | l | l <;> unfold PyVal.toItem at h <;> try (cases h; rfl)
  · cases h
  · split at h
    · rcases hr : l.toTables s with e | ts <;> rw [hr] at h <;> cases h
      cases ht
    · rcases hr : l.toElems s with e | is <;> rw [hr] at h
      · cases h
      · dsimp only at h
        unfold buildArray at h
        rcases he : (mkArray []).extend is with e | a <;> rw [he] at h <;> cases h
        rfl
  · rcases p with _ | _ | _ | _ <;> dsimp only at h
    · rcases hr : l.toChildren s .table with e | cs <;> rw [hr] at h
      · cases h
      · rcases hb : buildTable false (dictOrder s cs) with e | c <;> simp only [hb] at h <;> cases h
        cases ht
    · rcases hr : l.toChildren s .table with e | cs <;> rw [hr] at h
      · cases h
      · rcases hb : buildTable false (dictOrder s cs) with e | c <;> simp only [hb] at h <;> cases h
        cases ht
    · rcases hr : l.toChildren s .inline with e | cs <;> rw [hr] at h
      · cases h
      · rcases hb : buildInline (dictOrder s cs) with e | c <;> simp only [hb] at h <;> cases h
        rfl
    · rcases hr : l.toChildren s .inline with e | cs <;> rw [hr] at h
      · cases h
      · rcases hb : buildInline (dictOrder s cs) with e | c <;> simp only [hb] at h <;> cases h
        rfl

theorem sameAll_length : ∀ {l l' : List PyVal}, SameAll l l' → l'.length = l.length
  | [], l', h => by unfold SameAll at h; subst h; rfl
  | v :: r, l', h => by
    unfold SameAll at h
    obtain ⟨_, _, rfl, _, h⟩ := h
    simp [sameAll_length h]

theorem line_txt {v : PyVal} (hk : KeysOnce v) (hw : Writable v) {s : Bool} {p : Parent} {i : Item} (h : v.toItem s p = .ok i)
    (ht : i.isTableLike = false) : ∃ w, ItemTxt i w ∧ Same v w := by
  obtain ⟨i0, w, h1, h2, h3⟩ := item_holds v hk (writable_noNone hw) s p
  rw [h] at h1; cases h1
  obtain ⟨w', hf⟩ := item_lit v hk hw s p i h ht
  rw [← holds_unique h2 hf.is.holds] at hf
  exact ⟨w, .line hf (plain_trivia h ht), h3⟩

mutual
/-- a converted value in a table -/
theorem item_txt : ∀ (v : PyVal), KeysOnce v → Writable v → ∀ (s : Bool), ∃ i w, v.toItem s .table = .ok i ∧ ItemTxt i w ∧ Same v w
  | .bool b, hk, hw, s => by
    obtain ⟨w, h⟩ := line_txt hk hw (s := s) (p := .table) (by unfold PyVal.toItem; rfl) rfl; exact ⟨_, w, by unfold PyVal.toItem; rfl, h⟩
  | .int b, hk, hw, s => by
    obtain ⟨w, h⟩ := line_txt hk hw (s := s) (p := .table) (by unfold PyVal.toItem; rfl) rfl; exact ⟨_, w, by unfold PyVal.toItem; rfl, h⟩
  | .str b, hk, hw, s => by
    obtain ⟨w, h⟩ := line_txt hk hw (s := s) (p := .table) (by unfold PyVal.toItem; rfl) rfl; exact ⟨_, w, by unfold PyVal.toItem; rfl, h⟩
  | .date b, hk, hw, s => by
    obtain ⟨w, h⟩ := line_txt hk hw (s := s) (p := .table) (by unfold PyVal.toItem; rfl) rfl; exact ⟨_, w, by unfold PyVal.toItem; rfl, h⟩
  | .time b, hk, hw, s => by
    obtain ⟨w, h⟩ := line_txt hk hw (s := s) (p := .table) (by unfold PyVal.toItem; rfl) rfl; exact ⟨_, w, by unfold PyVal.toItem; rfl, h⟩
  | .datetime b, hk, hw, s => by
    obtain ⟨w, h⟩ := line_txt hk hw (s := s) (p := .table) (by unfold PyVal.toItem; rfl) rfl; exact ⟨_, w, by unfold PyVal.toItem; rfl, h⟩
  | .float b, hk, hw, s => by
    obtain ⟨w, h⟩ := line_txt hk hw (s := s) (p := .table) (by unfold PyVal.toItem; rfl) rfl; exact ⟨_, w, by unfold PyVal.toItem; rfl, h⟩
  | .none, _, hw, s => absurd (throughout_here hw) (fun h => h)
  | .list l, hk, hw, s => by
    by_cases hc : (!l.isEmpty && l.all PyVal.isDict) = true
    · have hk' := hk
      unfold KeysOnce at hk'
      simp only [Bool.and_eq_true] at hc
      obtain ⟨ts, ls, h1, h2, h3⟩ := tables_txt l hk' (proper_list hw) hc.2 s
      have hne : ls ≠ [] := by
        rintro rfl
        have := sameAll_length h3
        rw [List.length_nil] at this
        have h0 := List.length_eq_zero_iff.1 this.symm
        rw [h0] at hc; simp at hc
      refine ⟨_, .list ls, ?_, .aot (t := { trail := [] }) (nm := none) (pr := false) (aotFold_txt ts [] ls [] h2 .nil) (by simpa using hne), by unfold Same; exact ⟨_, rfl, h3⟩⟩
      unfold PyVal.toItem
      rw [if_pos (by simp [hc.1, hc.2]), h1]
    · obtain ⟨i, w, h1, h2, h3⟩ := item_holds (.list l) hk (writable_noNone hw) s .table
      have ht : i.isTableLike = false := by
        unfold PyVal.toItem at h1
        rw [if_neg (by simp only [Bool.and_eq_true] at hc ⊢; exact fun h => hc h.1)] at h1
        rcases hr : l.toElems s with e | is <;> rw [hr] at h1
        · cases h1
        · exact buildArray_noTable h1
      obtain ⟨w, h⟩ := line_txt hk hw h1 ht
      exact ⟨_, w, h1, h⟩
  | .dict l, hk, hw, s => by
    unfold KeysOnce at hk
    obtain ⟨cs, h1, h2, h3⟩ := children_txt l hk.2 (proper_dict hw) s
    obtain ⟨tb, l', e1, e2, e3, e4⟩ := dict_txt hk.1 h2 (dictOrder_perm s cs) h3 false
    refine ⟨.table tb, .dict l', ?_, .table e2 e3, e4⟩
    unfold PyVal.toItem
    dsimp only
    rw [h1]
    dsimp only
    rw [e1]; rfl
termination_by v => sizeOf v
theorem children_txt : ∀ (l : List PyPair), KeysOnceIn l → ThroughoutIn Proper l → ∀ (s : Bool),
    ∃ cs, l.toChildren s .table = .ok cs ∧ cs.map Child.key = l.map PyPair.key ∧
      ∀ ch ∈ cs, ∃ v w, .mk ch.key v ∈ l ∧ Same v w ∧ ItemTxt ch.item w
  | [], _, _, s => ⟨[], rfl, rfl, fun ch h => by cases h⟩
  | .mk k v :: r, hk, hn, s => by
    unfold KeysOnceIn at hk
    unfold ThroughoutIn at hn
    obtain ⟨i, w, h1, h2, h3⟩ := item_txt v hk.1 hn.1 s
    obtain ⟨cs, g1, g2, g3⟩ := children_txt r hk.2 hn.2 s
    unfold List.toChildren PyPair.toChild
    rw [h1, g1]
    refine ⟨⟨k, v.isDict, i⟩ :: cs, rfl, by simp [g2], ?_⟩
    intro ch hc
    rcases List.mem_cons.1 hc with rfl | hc
    · exact ⟨v, w, List.mem_cons_self .., h3, h2⟩
    · obtain ⟨v', w', e1, e2⟩ := g3 ch hc
      exact ⟨v', w', List.mem_cons_of_mem _ e1, e2⟩
termination_by l => sizeOf l
theorem tables_txt : ∀ (l : List PyVal), KeysOnceAll l → ThroughoutAll Proper l → l.all PyVal.isDict = true → ∀ (s : Bool),
    ∃ ts ls, l.toTables s = .ok ts ∧ TblsTxt ts ls ∧ SameAll l ls
  | [], _, _, _, s => ⟨[], [], rfl, .nil, by unfold SameAll; rfl⟩
  | .dict l :: r, hk, hn, hd, s => by
    unfold KeysOnceAll KeysOnce at hk
    unfold ThroughoutAll at hn
    have hn' := proper_dict (l := l) hn.1
    rw [List.all_cons] at hd
    obtain ⟨cs, h1, h2, h3⟩ := children_txt l hk.1.2 hn' s
    obtain ⟨tb, l', e1, e2, e3, e4⟩ := dict_txt hk.1.1 h2 (elemOrder_perm s cs) h3 true
    obtain ⟨tr, lr, g1, g2, g3⟩ := tables_txt r hk.2 hn.2 (by simpa [PyVal.isDict] using hd) s
    unfold List.toTables PyVal.toTable
    rw [h1]
    dsimp only
    rw [e1, g1]
    exact ⟨_, .dict l' :: lr, rfl, .cons e2 g2, by unfold SameAll; exact ⟨_, _, rfl, e4, g3⟩⟩
  | .bool _ :: r, _, _, hd, s | .int _ :: r, _, _, hd, s | .str _ :: r, _, _, hd, s | .date _ :: r, _, _, hd, s
  | .time _ :: r, _, _, hd, s | .datetime _ :: r, _, _, hd, s | .float _ :: r, _, _, hd, s | .none :: r, _, _, hd, s
  | .list _ :: r, _, _, hd, s => by
    rw [List.all_cons] at hd; simp [PyVal.isDict] at hd
termination_by l => sizeOf l
end

end Tomlkit
