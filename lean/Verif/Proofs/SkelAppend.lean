import Verif.Proofs.Skel
/-!
# Appending commutes with the skeleton
-/
namespace Tomlkit

/-- A result as far as it matters: in the document an append that reorders the text does not count. -/
def view {α : Type} (al : Bool) : Except Err (α × Bool) → Option (α × Bool)
  | .ok (a, b) => if al || !b then some (a, b) else none
  | .error _ => none

/-- forget the values in a result -/
def skelPair (p : Cont × Bool) : Cont × Bool := (p.1.skel, p.2)
@[inherit_doc skelPair] def skelTbl (p : Tbl × Bool) : Tbl × Bool := (p.1.skel, p.2)

theorem view_ok {α : Type} {al b : Bool} {a : α} (h : al = true ∨ b = false) : view al (.ok (a, b) : Except Err (α × Bool)) = some (a, b) := by
  unfold view
  rcases h with rfl | rfl
  · rfl
  · simp

theorem view_lost {α : Type} {a : α} : view false (.ok (a, true) : Except Err (α × Bool)) = none := rfl

theorem view_some {α : Type} {al : Bool} {r : Except Err (α × Bool)} {p : α × Bool} (h : view al r = some p) : r = .ok p ∧ (al = true ∨ p.2 = false) := by
  rcases r with e | ⟨a, b⟩
  · cases h
  · unfold view at h
    simp only at h
    split at h
    · cases h
      rename_i hc
      refine ⟨rfl, ?_⟩
      cases al
      · right; simpa using hc
      · left; rfl
    · cases h

theorem view_map {α β : Type} {f : α → β} {al : Bool} {x : Except Err α} {y : Except Err β} (b : Bool) (h : y = x.map f) :
    view al (y.map fun c => (c, b)) = (view al (x.map fun c => (c, b))).map fun p => (f p.1, p.2) := by
  subst h
  rcases x with e | c
  · rfl
  · simp only [Except.map, view]
    split <;> rfl

theorem ws_placed {n : Nat} {al val : Bool} {c c' : Cont} {mv : Bool} {key : Option SKey} {s : Str} {f : Bool} (hp : c.parsed = true)
    (h : Cont.append1 n al val c key (.ws s f) = .ok (c', mv)) {i : Nat} {e : Entry}
    (hpos : (match key with
        | some k => (match mapGet k.key c'.map with | some [i] => some i | _ => none)
        | none => some (c'.body.length - 1)) = some i) (he : c'.body[i]? = some e) : e.v.isWhitespace = true := by
  rcases n with _ | n
  · rw [Cont.append1] at h; cases h
  have hprep : ∀ w, c.prepare key (.ws s f) = .ok w → w = .ws s f := by
    intro w hw
    unfold Cont.prepare at hw
    cases hw
    rfl
  cases append1_cases h with
  | fresh w _ hw hk ht =>
    have hraw : c.rawAppend key w = .ok c' := by
      unfold Cont.appendTail at ht
      rcases key with _ | k
      · exact ht
      · simp only [hp, Bool.not_true, Bool.and_false, Bool.false_and, Bool.false_eq_true, if_false] at ht
        exact ht
    have hw := hprep w hw
    subst hw
    unfold Cont.rawAppend at hraw
    rcases key with _ | k
    · simp only at hraw hpos
      cases hraw
      cases hpos
      simp only [Cont.body_mk, List.length_append, List.length_singleton] at he
      rw [List.getElem?_append_right (by omega)] at he
      have : c.body.length + 1 - 1 - c.body.length = 0 := by omega
      rw [this] at he
      cases he; rfl
    · dsimp only at hraw
      rw [hk k rfl] at hraw
      simp only at hraw hpos
      cases hraw
      simp only [Cont.map_mk, mapGet_mapSet, if_true, Option.some.injEq] at hpos
      subst hpos
      simp only [Cont.body_mk] at he
      rw [List.getElem?_append_right (by omega)] at he
      rw [Nat.sub_self] at he
      cases he; rfl
  | again w _ k i cur ct tb hw hk hl hc hi ht => rw [hprep w hw] at hi; cases hi
  | aotAdd w k i cur tb ts t nm p hw hk hal hl hc hi ha => rw [hprep w hw] at hi; cases hi
  | toAoT w k i cur tb ct _ hw hk hal hl hc hi ha hr => rw [hprep w hw] at hi; cases hi
  | superApart w k i cur tb ct _ idx hw hk hl hc hi hs hs' hidx hr hv => rw [hprep w hw] at hi; cases hi
  | superMerge w k i cur tb ct ct' mv hw hk hl hc hi hs hs' hd hd' hf => rw [hprep w hw] at hi; cases hi
  | aotMerge w k i cur ts t nm p ts' t' nm' p' hw hk hal hl hc hi => rw [hprep w hw] at hi; cases hi

/-- one step of a loop of appends in a table, with the ghost -/
def flagStep (f : Tbl → Entry → Except Err (Tbl × Bool)) (p : Tbl × Bool) (e : Entry) : Except Err (Tbl × Bool) :=
  (f p.1 e).map fun q => (q.1, p.2 || q.2)

theorem fold_lost (f : Tbl → Entry → Except Err (Tbl × Bool)) (l : List Entry) : ∀ t, view false (foldE (flagStep f) (t, true) l) = none := by
  induction l with
  | nil => intro t; rfl
  | cons e l ih =>
    intro t
    rw [foldE]
    rcases hr : flagStep f (t, true) e with er | q
    · rfl
    · have : q.2 = true := by
        unfold flagStep at hr
        rcases hq : f (t, true).1 e with er | q' <;> rw [hq] at hr
        · cases hr
        · cases hr; rfl
      rcases q with ⟨q1, q2⟩
      cases this
      exact ih q1

theorem fold_skel {al : Bool} {f : Tbl → Entry → Except Err (Tbl × Bool)} (I : Tbl → Prop) (G : Entry → Prop)
    (hI : ∀ t e q, I t → G e → f t e = .ok q → I q.1)
    (hf : ∀ t e, I t → G e → view al (f t.skel e.skel) = (view al (f t e)).map skelTbl) (l : List Entry) (hG : ∀ e ∈ l, G e) (t : Tbl) (b : Bool) (ht : I t) :
    view al (foldE (flagStep f) (t.skel, b) (l.map Entry.skel)) = (view al (foldE (flagStep f) (t, b) l)).map skelTbl := by
  induction l generalizing t b with
  | nil =>
    simp only [List.map_nil, foldE, view]
    split <;> rfl
  | cons e l ih =>
    by_cases hb : al = false ∧ b = true
    · obtain ⟨rfl, rfl⟩ := hb
      rw [fold_lost, fold_lost]; rfl
    have hb : al = true ∨ b = false := by
      cases al <;> cases b <;> simp_all
    have h1 := hf t e ht (hG e (by simp))
    have h2 := hI t e
    rw [List.map_cons, foldE, foldE]
    have e1 : flagStep f (t, b) e = (f t e).map fun q => (q.1, b || q.2) := rfl
    have e2 : flagStep f (t.skel, b) e.skel = (f t.skel e.skel).map fun q => (q.1, b || q.2) := rfl
    rw [e1, e2]
    revert h1 h2
    generalize f t.skel e.skel = r'
    generalize f t e = r
    intro h1 h2
    rcases r with er | ⟨t1, b1⟩
    · rcases r' with er' | ⟨t1', b1'⟩
      · rfl
      · cases al
        · cases b1'
          · cases h1
          · show view false (foldE _ (t1', b || true) _) = _
            rw [Bool.or_true, fold_lost]; rfl
        · cases h1
    · rcases r' with er' | ⟨t1', b1'⟩
      · cases al
        · cases b1
          · cases h1
          · show _ = Option.map _ (view false (foldE _ (t1, b || true) _))
            rw [Bool.or_true, fold_lost]; rfl
        · cases h1
      · by_cases hb1 : al = false ∧ b1 = true
        · obtain ⟨rfl, rfl⟩ := hb1
          cases b1'
          · cases h1
          · show view false (foldE _ (t1', b || true) _) = Option.map _ (view false (foldE _ (t1, b || true) _))
            rw [Bool.or_true, fold_lost, fold_lost]; rfl
        have hb1 : al = true ∨ b1 = false := by
          cases al <;> cases b1 <;> simp_all
        rw [view_ok hb1] at h1
        obtain ⟨h3, _⟩ := view_some h1
        cases h3
        exact ih (fun e he => hG e (by simp [he])) t1 (b || b1) (h2 (t1, b1) ht (hG e (by simp)) rfl)

/-- one step of a loop of appends in a scratch container -/
def dropStep (f : Cont → Entry → Except Err (Cont × Bool)) (p : Cont) (e : Entry) : Except Err Cont := (f p e).map Prod.fst

theorem scratch_skel {f : Cont → Entry → Except Err (Cont × Bool)} (I : Cont → Prop) (G : Entry → Prop)
    (hI : ∀ t e q, I t → G e → f t e = .ok q → I q.1)
    (hf : ∀ t e, I t → G e → view true (f t.skel e.skel) = (view true (f t e)).map skelPair) (l : List Entry) (hG : ∀ e ∈ l, G e) (t : Cont) (ht : I t) :
    (foldE (dropStep f) t.skel (l.map Entry.skel)).toOption =
      (foldE (dropStep f) t l).toOption.map Cont.skel := by
  induction l generalizing t with
  | nil => rfl
  | cons e l ih =>
    have h1 := hf t e ht (hG e (by simp))
    have h2 := hI t e
    rw [List.map_cons, foldE, foldE]
    have e1 : dropStep f t e = (f t e).map Prod.fst := rfl
    have e2 : dropStep f t.skel e.skel = (f t.skel e.skel).map Prod.fst := rfl
    rw [e1, e2]
    revert h1 h2
    generalize f t.skel e.skel = r'
    generalize f t e = r
    intro h1 h2
    rcases r with er | ⟨t1, b1⟩
    · rcases r' with er' | ⟨t1', b1'⟩
      · rfl
      · cases h1
    · rcases r' with er' | ⟨t1', b1'⟩
      · cases h1
      · cases h1
        exact ih (fun e he => hG e (by simp [he])) t1 (h2 (t1, b1) ht (hG e (by simp)) rfl)

theorem checks_skel {f g : Str → Except Err Bool} (h : ∀ k, (f k).toOption = (g k).toOption) (l : List Str) :
    (foldE (fun _ k => (f k).map fun _ => ()) () l).toOption = (foldE (fun _ k => (g k).map fun _ => ()) () l).toOption := by
  induction l with
  | nil => rfl
  | cons k l ih =>
    rw [foldE, foldE]
    have := h k
    rcases hf : f k with e | b <;> rcases hg : g k with e' | b' <;> rw [hf, hg] at this
    · rfl
    · cases this
    · cases this
    · exact ih

theorem toOption_cases {α : Type} {x y : Except Err α} (h : x.toOption = y.toOption) :
    (∃ e e', x = .error e ∧ y = .error e') ∨ ∃ a, x = .ok a ∧ y = .ok a := by
  rcases x with e | a <;> rcases y with e' | b
  · exact Or.inl ⟨e, e', rfl, rfl⟩
  · cases h
  · cases h
  · cases h; exact Or.inr ⟨_, rfl, rfl⟩

/-- the check of `Table.append` on the value just put -/
def hasKey (n : Nat) (c : Cont) : Option SKey → Except Err Bool
  | some k => Cont.has n c k.key
  | none => .ok true

/-- where `Table.append` finds the value just put -/
def posOf (c : Cont) : Option SKey → Option Nat
  | some k => (match mapGet k.key c.map with | some [i] => some i | _ => none)
  | none => some (c.body.length - 1)

/-- the end of `Table.append` -/
def tblTail (al : Bool) (t : Tbl) (key : Option SKey) (isWs : Bool) (c : Cont) (mv : Bool) : Except Err (Tbl × Bool) :=
  match spaceRun t.trivia.indent with
  | none => .ok (t.setCont c, mv)
  | some ind =>
    if al && !isWs then .error .unmodelled else
    match (posOf c key).bind fun i => (c.body[i]?).map fun e => (i, e) with
    | none => .error .attributeError
    | some (i, e) =>
      if e.v.isWhitespace then .ok (t.setCont c, mv)
      else if e.v.isBool && key.isSome then .error .attributeError
      else .ok (t.setCont (.mk (setTriviaAt i (fun tr => { tr with indent := insertIndent ind tr.indent })
          c.body) c.map c.dict c.parsed c.tableKeys), true)

theorem tbl_eq (n : Nat) (al : Bool) (t : Tbl) (key : Option SKey) (v : Item) : Tbl.append1 (n + 1) al t key v =
    (match Cont.append1 n al true t.cont key v with
    | .error e => .error e
    | .ok (c, mv) => match hasKey n c key with
      | .error e => .error e
      | .ok _ => tblTail al t key v.isWhitespace c mv) := by
  rw [Tbl.append1]
  rcases key with _ | k <;> rfl

theorem tbl_none {n : Nat} {al : Bool} {t : Tbl} {key : Option SKey} {v : Item} (h : view al (Cont.append1 n al true t.cont key v) = none) :
    view al (Tbl.append1 (n + 1) al t key v) = none := by
  rw [tbl_eq]
  rcases hr : Cont.append1 n al true t.cont key v with e | ⟨c, mv⟩ <;> rw [hr] at h
  · rfl
  · have : al = false ∧ mv = true := by
      unfold view at h
      cases al <;> cases mv <;> simp_all
    obtain ⟨rfl, rfl⟩ := this
    dsimp only
    rcases hasKey n c key with e | b
    · rfl
    dsimp only
    unfold tblTail
    rcases spaceRun t.trivia.indent with _ | ind
    · rfl
    simp only [Bool.false_and, Bool.false_eq_true, if_false]
    generalize (Option.bind _ _ : Option (Nat × Entry)) = o
    rcases o with _ | ⟨i, e⟩
    · rfl
    simp only
    split
    · rfl
    split <;> rfl

theorem skel_posEntry (c : Cont) (o : Option Nat) : (o.bind fun i => (c.skel.body[i]?).map fun e => (i, e)) =
    (o.bind fun i => (c.body[i]?).map fun e => (i, e)).map fun p => (p.1, p.2.skel) := by
  rcases o with _ | i
  · rfl
  simp only [Option.bind_some, Cont.skel_body, List.getElem?_map, Option.map_map]
  rcases c.body[i]? with _ | e <;> rfl

theorem tbl_skel {n : Nat} {al : Bool} {t : Tbl} {key : Option SKey} {v : Item} (hp : t.cont.parsed = true)
    (h : view al (Cont.append1 n al true t.cont.skel key v.skel) = (view al (Cont.append1 n al true t.cont key v)).map skelPair)
    (hh : ∀ c mv k, Cont.append1 n al true t.cont key v = .ok (c, mv) → (Cont.has n c.skel k).toOption = (Cont.has n c k).toOption) :
    view al (Tbl.append1 (n + 1) al t.skel key v.skel) = (view al (Tbl.append1 (n + 1) al t key v)).map skelTbl := by
  rcases hv : view al (Cont.append1 n al true t.cont key v) with _ | ⟨c, mv⟩
  · rw [hv] at h
    rw [tbl_none hv, tbl_none (by rw [Tbl.skel_cont]; exact h)]; rfl
  rw [hv] at h
  obtain ⟨h1, hmv⟩ := view_some hv
  obtain ⟨h2, _⟩ := view_some h
  rw [tbl_eq, tbl_eq, Tbl.skel_cont, h1, h2]
  simp only [skelPair]
  have hh1 := fun k => hh c mv k h1
  have ho : (hasKey n c.skel key).toOption = (hasKey n c key).toOption := by
    rcases key with _ | k
    · rfl
    · exact hh1 k.key
  rcases toOption_cases ho with ⟨e, e', ho1, ho2⟩ | ⟨b, ho1, ho2⟩ <;> rw [ho1, ho2]
  · rfl
  dsimp only
  unfold tblTail
  simp only [Tbl.skel_trivia]
  rcases spaceRun t.trivia.indent with _ | ind
  · simp only
    rw [view_ok hmv, view_ok hmv]
    simp [skelTbl, Tbl.skel_setCont]
  simp only [Item.skel_isWhitespace]
  by_cases hal : (al && !v.isWhitespace) = true
  · rw [if_pos hal, if_pos hal]; rfl
  have hpo : posOf c.skel key = posOf c key := by
    unfold posOf
    rw [Cont.skel_map, Cont.skel_body, List.length_map]
  rw [if_neg hal, if_neg hal, hpo, skel_posEntry]
  generalize hpos : posOf c key = pos
  rcases he : (pos.bind fun i => (c.body[i]?).map fun e => (i, e)) with _ | ⟨i, e⟩
  · rfl
  simp only [Option.map_some, Entry.skel_v, Item.skel_isWhitespace]
  by_cases hw : e.v.isWhitespace = true
  · rw [if_pos hw, if_pos hw, view_ok hmv, view_ok hmv]
    simp [skelTbl, Tbl.skel_setCont]
  rw [if_neg hw, if_neg hw]
  cases al
  · rcases (e.v.isBool && key.isSome) with _ | _ <;> rcases (e.v.skel.isBool && key.isSome) with _ | _ <;> rfl
  · exfalso
    rw [Bool.true_and] at hal
    rcases pos with _ | j
    · cases he
    simp only [Option.bind_some, Option.map_eq_some_iff] at he
    obtain ⟨e0, he0, he1⟩ := he
    cases he1
    rcases v with ⟨s, f⟩ | _ | _ | _ | _ | _ | _ | _ | _ | _ | _ | _ | _ | _ <;> first | exact absurd rfl hal | skip
    refine hw (ws_placed hp h1 (i := i) ?_ he0)
    rcases key with _ | k <;> exact hpos

theorem has_skel {n : Nat} {c : Cont} (h : ∀ is, (Cont.mkProxy n c.skel is).toOption = (Cont.mkProxy n c is).toOption.map Cont.skel) (k : Str) :
    (Cont.has (n + 1) c.skel k).toOption = (Cont.has (n + 1) c k).toOption := by
  rw [Cont.has, Cont.has, Cont.skel_map]
  have h : ∀ is, ((Cont.mkProxy n c.skel is).map fun _ => true).toOption = ((Cont.mkProxy n c is).map fun _ => true).toOption := by
    intro is
    have := h is
    revert this
    generalize Cont.mkProxy n c.skel is = r
    generalize Cont.mkProxy n c is = r'
    intro this
    rcases r with e | p <;> rcases r' with e' | p' <;> first | rfl | cases this
  rcases mapGet k c.map with _ | is
  · rfl
  rcases is with _ | ⟨i, _ | ⟨j, r⟩⟩
  · exact h _
  · rfl
  · exact h _

theorem skel_flatBody (ts : List Tbl) : ((ts.map Tbl.skel).flatMap fun t => t.cont.body) = (ts.flatMap fun t => t.cont.body).map Entry.skel := by
  induction ts with
  | nil => rfl
  | cons t ts ih => simp only [List.map_cons, List.flatMap_cons, ih, List.map_append, Tbl.skel_cont, Cont.skel_body]

theorem mkProxy_skel {n : Nat} {c : Cont} (hc : c.Good PW)
    (ha : ∀ (c : Cont) key v, c.Good PW → v.Good PW → view true (Cont.append1 n true false c.skel key v.skel) = (view true (Cont.append1 n true false c key v)).map skelPair)
    (hh : ∀ (c : Cont) k, c.Good PW → (Cont.has n c.skel k).toOption = (Cont.has n c k).toOption) (is : List Nat) :
    (Cont.mkProxy (n + 1) c.skel is).toOption = (Cont.mkProxy (n + 1) c is).toOption.map Cont.skel := by
  have he : ∀ c, Cont.mkProxy (n + 1) c is = (match foldE (dropStep fun p e => Cont.append1 n true false p e.key e.v) (Cont.empty true)
        ((tablesAt c.body is).flatMap fun t => t.cont.body) with
    | .error e => .error e
    | .ok p =>
      match foldE (fun _ k => (Cont.has n p k).map fun _ => ()) () (p.map.map (·.1)) with
      | .error e => .error e
      | .ok _ => .ok p) := fun c => by rw [Cont.mkProxy]; rfl
  have hG : ∀ e ∈ (tablesAt c.body is).flatMap fun t => t.cont.body, e.v.Good PW := by
    intro e he
    simp only [List.mem_flatMap] at he
    obtain ⟨t, ht, he⟩ := he
    have := ((Cont.good_iff c).1 hc).2
    unfold tablesAt at ht
    simp only [List.mem_filterMap] at ht
    obtain ⟨i, _, hi⟩ := ht
    rcases hb : c.body[i]? with _ | ⟨k, v⟩ <;> rw [hb] at hi
    · cases hi
    have hv := this _ (List.mem_of_getElem? hb)
    cases v <;> cases hi
    exact ((Cont.good_iff _).1 ((Tbl.good_iff _).1 hv)).2 e he
  rw [he, he, Cont.skel_body, skel_tablesAt, skel_flatBody]
  have h0 := scratch_skel (f := fun p e => Cont.append1 n true false p e.key e.v) (fun c => c.Good PW) (fun e => e.v.Good PW)
    (fun t e q ht he hq => (append1_good closed_PW n).1 ht he hq)
    (fun t e ht he => by rw [Entry.skel_key, Entry.skel_v]; exact ha t e.key e.v ht he)
    ((tablesAt c.body is).flatMap fun t => t.cont.body) hG (Cont.empty true) (Cont.good_empty closed_PW)
  have h1 : ∀ p, foldE (dropStep fun p e => Cont.append1 n true false p e.key e.v) (Cont.empty true) ((tablesAt c.body is).flatMap fun t => t.cont.body) = .ok p → p.Good PW := by
    intro p hp
    refine foldE_inv (fun c => c.Good PW) (Cont.good_empty closed_PW) ?_ hp
    intro b a b' hm hb hs
    unfold dropStep at hs
    dsimp only at hs
    rcases hq : Cont.append1 n true false b a.key a.v with er | ⟨q1, q2⟩ <;> rw [hq] at hs
    · cases hs
    · cases hs
      exact (append1_good closed_PW n).1 hb (hG a hm) hq
  have h2 : (Cont.empty true).skel = Cont.empty true := rfl
  rw [h2] at h0
  revert h0 h1
  generalize foldE (dropStep fun p e => Cont.append1 n true false p e.key e.v) (Cont.empty true) (((tablesAt c.body is).flatMap fun t => t.cont.body).map Entry.skel) = r'
  generalize foldE (dropStep fun p e => Cont.append1 n true false p e.key e.v) (Cont.empty true) ((tablesAt c.body is).flatMap fun t => t.cont.body) = r
  intro h0 h1
  rcases r' with e' | p' <;> rcases r with e | p
  · rfl
  · cases h0
  · cases h0
  cases h0
  dsimp only
  rw [Cont.skel_map]
  rcases toOption_cases (checks_skel (fun k => hh p k (h1 p rfl)) (p.map.map (·.1))) with ⟨e, e', ho1, ho2⟩ | ⟨b, ho1, ho2⟩ <;> rw [ho1, ho2]
  · rfl
  · rfl

/-- the end of the merge of two super tables -/
def mergeTail (c : Cont) (k : SKey) (i : Nat) (cur : Entry) : Except Err (Tbl × Bool) → Except Err (Cont × Bool)
  | .error e => .error e
  | .ok (ct', mv) =>
    .ok (.mk (c.body.set i (.mk cur.key (.table ct'))) c.map c.dict c.parsed c.tableKeys,
      i + 1 != c.body.length || cur.key.map SKey.orig != some k.orig || mv)

theorem mergeTail_none {al : Bool} {r : Except Err (Tbl × Bool)} {c : Cont} {k : SKey} {i : Nat} {cur : Entry} (hr : view al r = none) :
    view al (mergeTail c k i cur r) = none := by
  rcases r with e | ⟨t, b⟩
  · rfl
  · have : al = false ∧ b = true := by
      unfold view at hr
      cases al <;> cases b <;> simp_all
    obtain ⟨rfl, rfl⟩ := this
    simp [view, mergeTail]

/-- what appending does when the key is there already, container.py:184-291 -/
def presentStep (n : Nat) (al validate : Bool) (c : Cont) (k : SKey) (item : Item) (i : Nat) (cur : Entry) : Except Err (Cont × Bool) :=
  match item with
  | .table tb =>
    if !cur.v.isTableLike then .error .keyAlreadyPresent
    else if tb.isAot then
      if al then .error .unmodelled else
      match cur.v with
      | .aot ts t nm p =>
        .ok (.mk (c.body.set i (.mk cur.key (.aot (aotAppend t p ts tb) t nm p))) c.map c.dict
          c.parsed c.tableKeys, true)
      | .table ct => (c.replaceByAoT k (mkAoT [ct, tb] none c.parsed)).map (·, true)
      | _ => .error .keyAlreadyPresent
    else
      match cur.v with
      | .table ct =>
        if ct.isSuper then
          if tb.isSuper then
            let keyNe := match c.tableKeys.getLast? with
              | some l => some (!(l == k.key))
              | none => none
            match (if k.dotted || isDottedKey cur.key then some true else keyNe) with
            | none => .error .indexError
            | some true =>
              let idx := if k.dotted && !c.parsed then c.lastIndexBeforeTable else c.body.length
              match (if idx < c.body.length then c.insertAt idx k item else c.rawAppend (some k) item) with
              | .error e => .error e
              | .ok c' =>
                match (if validate then Cont.has n c' k.key else .ok true) with
                | .error e => .error e
                | .ok _ => .ok (c', decide (idx < c.body.length))
            | some false =>
              mergeTail c k i cur (foldE (flagStep fun t e => Tbl.append1 n al t e.key e.v) (ct.deepCopy, false) tb.cont.body)
          else if isDottedKey cur.key then .error .tomlkit
          else (c.appendTail (some k) item).map (·, false)
        else if !tb.isSuper then .error .keyAlreadyPresent
        else (c.appendTail (some k) item).map (·, false)
      | _ => .error .keyAlreadyPresent
  | .aot ts _ _ _ =>
    match cur.v with
    | .aot ts' t' n' p' =>
      if al then .error .unmodelled else
      .ok (.mk (c.body.set i (.mk cur.key (.aot (ts.foldl (aotAppend t' p') ts') t' n' p'))) c.map c.dict
        c.parsed c.tableKeys, i + 1 != c.body.length || cur.key.map SKey.orig != some k.orig || (spaceRun t'.indent).isSome)
    | _ => .error .keyAlreadyPresent
  | _ => .error .keyAlreadyPresent

theorem append1_present {n : Nat} {al validate : Bool} {c : Cont} {k : SKey} {v w : Item} {i : Nat} {cur : Entry} (hp : (al && !c.parsed) = false)
    (hw : c.prepare (some k) v = .ok w) (hh : Cont.has n c k.key = .ok true) (hl : c.lastEntry k.key = some (i, cur)) :
    Cont.append1 (n + 1) al validate c (some k) v = presentStep n al validate c k w i cur := by
  rw [Cont.append1, hp, hw]
  simp only [Bool.false_eq_true, if_false]
  rw [hh]
  simp only
  rw [hl]
  unfold presentStep
  cases w <;> rfl

theorem pairs_skel {al : Bool} {x y : Except Err Cont} (h : y = x.map Cont.skel) (b : Bool) :
    view al (y.map (·, b)) = (view al (x.map (·, b))).map skelPair := view_map b h

theorem present_skel {n : Nat} {al validate : Bool} {c : Cont} (hc : c.Good PW) (k : SKey) {w : Item} (hw : w.Good PW) (i : Nat) {cur : Entry} (hcur : cur.v.Good PW)
    (hh : ∀ (c : Cont) k, c.Good PW → (Cont.has n c.skel k).toOption = (Cont.has n c k).toOption)
    (ht : ∀ al (t : Tbl) key v, t.Good PW → v.Good PW → view al (Tbl.append1 n al t.skel key v.skel) = (view al (Tbl.append1 n al t key v)).map skelTbl) :
    view al (presentStep n al validate c.skel k w.skel i cur.skel) = (view al (presentStep n al validate c k w i cur)).map skelPair := by
  have hp := ((Cont.good_iff c).1 hc).1.parsed
  have htail := fun (k : Option SKey) v => pairs_skel (al := al) (skel_appendTail hp k v) false
  have hset : ∀ v : Item, (Cont.mk (c.skel.body.set i (.mk cur.skel.key v.skel)) c.skel.map c.skel.dict c.skel.parsed c.skel.tableKeys) =
      (Cont.mk (c.body.set i (.mk cur.key v)) c.map c.dict c.parsed c.tableKeys).skel := by
    intro v
    rw [Cont.skel_mk]
    simp only [Cont.skel_map, Cont.skel_body, Cont.skel_dict, Cont.skel_parsed, Cont.skel_tableKeys, Entry.skel_key, List.map_set, Entry.skel]
  unfold presentStep
  rcases w with _ | _ | _ | _ | _ | _ | _ | _ | _ | _ | _ | tb | ⟨ts, t, nm, p⟩ | _
  case table =>
    rw [show (Item.table tb).skel = .table tb.skel from by rw [Item.skel]]
    dsimp only
    rw [Entry.skel_v, Item.skel_isTableLike]
    by_cases h1 : (!cur.v.isTableLike) = true
    · rw [if_pos h1, if_pos h1]; rfl
    rw [if_neg h1, if_neg h1, Tbl.skel_isAot]
    by_cases h2 : tb.isAot = true
    · rw [if_pos h2, if_pos h2]
      by_cases h3 : al = true
      · rw [if_pos h3, if_pos h3]; rfl
      rw [if_neg h3, if_neg h3]
      have h3 : al = false := by simpa using h3
      subst h3
      rcases cur.v with _ | _ | _ | _ | _ | _ | _ | _ | _ | _ | _ | ct | ⟨ts, t, nm, p⟩ | _
      case table =>
        simp only [Item.skel]
        rcases c.skel.replaceByAoT k (mkAoT [ct.skel, tb.skel] none c.skel.parsed) with _ | _ <;>
          rcases c.replaceByAoT k (mkAoT [ct, tb] none c.parsed) with _ | _ <;> rfl
      case aot => simp only [Item.skel]; rfl
      all_goals (simp only [Item.skel]; rfl)
    rw [if_neg h2, if_neg h2]
    rcases hcv : cur.v with _ | _ | _ | _ | _ | _ | _ | _ | _ | _ | _ | ct | ⟨ts, t, nm, p⟩ | _
    case table =>
      rw [show (Item.table ct).skel = .table ct.skel from by rw [Item.skel]]
      dsimp only
      rw [Tbl.skel_isSuper, Tbl.skel_isSuper]
      by_cases h4 : ct.isSuper = true
      · rw [if_pos h4, if_pos h4]
        by_cases h5 : tb.isSuper = true
        · rw [if_pos h5, if_pos h5, Entry.skel_key, Cont.skel_tableKeys]
          generalize (if (k.dotted || isDottedKey cur.key) = true then some true else
            (match c.tableKeys.getLast? with | some l => some (!(l == k.key)) | none => none)) = o
          rcases o with _ | _ | _
          · rfl
          · dsimp only
            have hct : ct.Good PW := by rw [hcv] at hcur; exact hcur
            have hb : tb.skel.cont.body = tb.cont.body.map Entry.skel := by rw [Tbl.skel_cont, Cont.skel_body]
            have hf := fold_skel (al := al) (f := fun t e => Tbl.append1 n al t e.key e.v) (fun t => t.Good PW) (fun e => e.v.Good PW)
              (fun t e q ht he hq => (append1_good closed_PW n).2 ht he hq)
              (fun t e hgt he => by rw [Entry.skel_key, Entry.skel_v]; exact ht al t e.key e.v hgt he)
              tb.cont.body (((Cont.good_iff _).1 ((Tbl.good_iff _).1 hw)).2) ct.deepCopy false (Tbl.deepCopy_good closed_PW ct hct)
            rw [← Tbl.skel_deepCopy, hb]
            revert hf
            generalize foldE (flagStep fun t e => Tbl.append1 n al t e.key e.v) (ct.deepCopy.skel, false) (tb.cont.body.map Entry.skel) = r'
            generalize foldE (flagStep fun t e => Tbl.append1 n al t e.key e.v) (ct.deepCopy, false) tb.cont.body = r
            intro hf
            rcases hr : view al r with _ | ⟨t1, b1⟩
            · rw [hr] at hf
              rw [mergeTail_none hf, mergeTail_none hr]; rfl
            · rw [hr] at hf
              obtain ⟨h6, hb1⟩ := view_some hr
              obtain ⟨h7, _⟩ := view_some hf
              subst h6 h7
              simp only [skelTbl, mergeTail]
              have := hset (.table t1)
              rw [show (Item.table t1).skel = .table t1.skel from by rw [Item.skel]] at this
              rw [this, Cont.skel_body, List.length_map, Entry.skel_key]
              unfold view
              dsimp only
              split <;> rfl
          · dsimp only
            simp only [Cont.skel_parsed, hp, Bool.not_true, Bool.and_false, Bool.false_eq_true, if_false, Nat.lt_irrefl, decide_false]
            have hr := skel_rawAppend c (some k) (.table tb)
            rw [show (Item.table tb).skel = .table tb.skel from by rw [Item.skel]] at hr
            rw [hr]
            rcases hq : c.rawAppend (some k) (.table tb) with e | c1
            · rfl
            · simp only [Except.map]
              have hg : c1.Good PW := by
                rw [Cont.good_iff]
                have hw1 : c1.WF := ((Cont.good_iff c).1 hc).1.wf.rawAppend (fun _ _ _ => rfl) hq
                exact ⟨rawAppend_PW ((Cont.good_iff c).1 hc).1 hw1 hq, rawAppend_bodyGood ((Cont.good_iff _).1 hc).2 hw hq⟩
              have hgo : (if validate = true then Cont.has n c1.skel k.key else .ok true).toOption =
                  (if validate = true then Cont.has n c1 k.key else .ok true).toOption := by
                split
                · exact hh c1 k.key hg
                · rfl
              rcases toOption_cases hgo with ⟨e, e', ho1, ho2⟩ | ⟨b, ho1, ho2⟩ <;> rw [ho1, ho2]
              · rfl
              · unfold view
                simp only [Bool.not_false, Bool.or_true, if_true]
                rfl
        · rw [if_neg h5, if_neg h5, Entry.skel_key]
          by_cases h6 : isDottedKey cur.key = true
          · rw [if_pos h6, if_pos h6]; rfl
          · rw [if_neg h6, if_neg h6]
            have := htail (some k) (.table tb)
            rw [show (Item.table tb).skel = .table tb.skel from by rw [Item.skel]] at this
            exact this
      · rw [if_neg h4, if_neg h4]
        by_cases h5 : (!tb.isSuper) = true
        · rw [if_pos h5, if_pos h5]; rfl
        · rw [if_neg h5, if_neg h5]
          have := htail (some k) (.table tb)
          rw [show (Item.table tb).skel = .table tb.skel from by rw [Item.skel]] at this
          exact this
    all_goals (simp only [Item.skel]; rfl)
  case aot =>
    rw [show (Item.aot ts t nm p).skel = .aot ts.skelTables t nm p from by rw [Item.skel]]
    dsimp only
    rw [Entry.skel_v]
    rcases cur.v with _ | _ | _ | _ | _ | _ | _ | _ | _ | _ | _ | ct | ⟨ts', t', nm', p'⟩ | _
    case aot =>
      rw [show (Item.aot ts' t' nm' p').skel = .aot ts'.skelTables t' nm' p' from by rw [Item.skel]]
      dsimp only
      by_cases h3 : al = true
      · rw [if_pos h3, if_pos h3]; rfl
      rw [if_neg h3, if_neg h3]
      have := hset (.aot (ts.foldl (aotAppend t' p') ts') t' nm' p')
      rw [show (Item.aot (ts.foldl (aotAppend t' p') ts') t' nm' p').skel = .aot (ts.foldl (aotAppend t' p') ts').skelTables t' nm' p' from by rw [Item.skel],
        skelTables_eq, aotFold_skel] at this
      rw [skelTables_eq, skelTables_eq, this, Cont.skel_body, List.length_map, Entry.skel_key]
      unfold view
      dsimp only
      split <;> rfl
    all_goals (simp only [Item.skel]; rfl)
  all_goals (simp only [Item.skel]; rfl)

/-- appending looks only at the skeleton -/
theorem append1_skel : ∀ n, (∀ al validate (c : Cont) key v, c.Good PW → v.Good PW →
      view al (Cont.append1 n al validate c.skel key v.skel) = (view al (Cont.append1 n al validate c key v)).map skelPair) ∧
    (∀ (c : Cont) k, c.Good PW → (Cont.has n c.skel k).toOption = (Cont.has n c k).toOption) ∧
    (∀ (c : Cont) is, c.Good PW → (Cont.mkProxy n c.skel is).toOption = (Cont.mkProxy n c is).toOption.map Cont.skel) ∧
    (∀ al (t : Tbl) key v, t.Good PW → v.Good PW → view al (Tbl.append1 n al t.skel key v.skel) = (view al (Tbl.append1 n al t key v)).map skelTbl) := by
  intro n
  induction n with
  | zero =>
    refine ⟨?_, ?_, ?_, ?_⟩
    · intros; rw [Cont.append1, Cont.append1]; rfl
    · intros; rw [Cont.has, Cont.has]; try rfl
    · intros; rw [Cont.mkProxy, Cont.mkProxy]; try rfl
    · intros; rw [Tbl.append1, Tbl.append1]; rfl
  | succ n ih =>
    obtain ⟨iha, ihh, ihp, iht⟩ := ih
    refine ⟨?_, ?_, ?_, ?_⟩
    · intro al validate c key v hc hv
      have hp := ((Cont.good_iff c).1 hc).1.parsed
      have hpr := skel_prepare hp key v
      have hpb : (al && !c.parsed) = false := by rw [hp]; simp
      have hpb' : (al && !c.skel.parsed) = false := by rw [Cont.skel_parsed, hp]; simp
      rcases hw : c.prepare key v with e | w <;> rw [hw] at hpr
      · rw [Cont.append1, Cont.append1, hpb, hpb', hw, hpr]; rfl
      have hgw := prepare_good closed_PW hv hw
      rcases key with _ | k
      · rw [Cont.append1, Cont.append1, hpb, hpb', hw, hpr]
        exact pairs_skel (skel_appendTail hp none w) false
      rcases toOption_cases (ihh c k.key hc) with ⟨e, e', ho1, ho2⟩ | ⟨b, ho1, ho2⟩
      · rw [Cont.append1, Cont.append1, hpb, hpb', hw, hpr]
        simp only [Except.map, Bool.false_eq_true, if_false]
        rw [ho1, ho2]; rfl
      cases b
      · rw [Cont.append1, Cont.append1, hpb, hpb', hw, hpr]
        simp only [Except.map, Bool.false_eq_true, if_false]
        rw [ho1, ho2]
        exact pairs_skel (skel_appendTail hp (some k) w) false
      · have hl := skel_lastEntry c k.key
        rcases hle : c.lastEntry k.key with _ | ⟨i, cur⟩ <;> rw [hle] at hl
        · rw [Cont.append1, Cont.append1, hpb, hpb', hw, hpr]
          simp only [Except.map, Bool.false_eq_true, if_false]
          rw [ho1, ho2]
          dsimp only
          rw [hl, hle]; rfl
        · obtain ⟨is, _, _, hb, _, _⟩ := Cont.lastEntry_spec ((Cont.good_iff c).1 hc).1.wf hle
          rw [append1_present hpb hw ho2 hle, append1_present hpb' hpr ho1 hl]
          exact present_skel hc k hgw i (((Cont.good_iff c).1 hc).2 _ (List.mem_of_getElem? hb)) ihh iht
    · intro c k hc
      exact has_skel (fun is => ihp c is hc) k
    · intro c is hc
      exact mkProxy_skel hc (fun c key v => iha true false c key v) ihh is
    · intro al t key v ht hv
      have hc := (Tbl.good_iff t).1 ht
      exact tbl_skel ((Cont.good_iff _).1 hc).1.parsed (iha al true t.cont key v hc hv)
        (fun c mv k hq => ihh c k ((append1_good closed_PW n).1 hc hv hq))

end Tomlkit
