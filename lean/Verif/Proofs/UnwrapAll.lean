import Verif.Proofs.Union
/-!
# What `unwrap` gives is what is written
-/
namespace Tomlkit
open _root_.Spec Tomlkit.Spec

theorem look_nil (v : PyVal) : look [] v = some (shapeOf v) := rfl
theorem look_key (k : Str) (p : List Hop) (l : List PyPair) : look (.key k :: p) (.dict l) = (pyGet k l).bind (look p) := by
  unfold look
  rw [valAt]
  cases pyGet k l <;> rfl
theorem look_idx (i : Nat) (p : List Hop) (l : List PyVal) : look (.idx i :: p) (.list l) = l[i]?.bind (look p) := by
  unfold look
  rw [valAt]
  cases l[i]? <;> rfl

/-- a value that is no list and no dict -/
theorem look_scalar {v : PyVal} (h : shapeOf v = .scalar v) (a : Hop) (p : List Hop) : look (a :: p) v = none := by
  rcases v with _ | _ | _ | _ | _ | _ | _ | _ | l | l <;>
    first | (rcases a with _ | _ <;> rfl) | cases h

/-- the entries under one key of a consistent container -/
theorem entry_iff {c : Cont} (h : c.WF) {k : Str} {is : List Nat} (hm : mapGet k c.map = some is) (e : Entry) :
    (e ∈ c.body ∧ e.name = some k) ↔ ∃ i ∈ is, c.body[i]? = some e := by
  constructor
  · rintro ⟨h1, h2⟩
    obtain ⟨i, hi⟩ := List.mem_iff_getElem?.1 h1
    have : (c.body.map Entry.name)[i]? = some (some k) := by rw [List.getElem?_map, hi]; exact congrArg some h2
    rw [← shape_names] at this
    obtain ⟨is', h3, h4⟩ := (h.idx.pos k i).1 this
    rw [hm] at h3
    cases h3
    exact ⟨i, h4, hi⟩
  · rintro ⟨i, h1, h2⟩
    refine ⟨List.mem_iff_getElem?.2 ⟨i, h2⟩, ?_⟩
    have := (h.idx.pos k i).2 ⟨is, hm, h1⟩
    rw [shape_names, List.getElem?_map, h2] at this
    exact Option.some.inj this

theorem writtenB_iff {b : List Entry} {k : Str} {p : List Hop} {s : Shape} :
    WrittenB b k p s ↔ ∃ e ∈ b, e.name = some k ∧ Written p e.v s := by
  constructor
  · rintro ⟨key, v, h1, h2, h3⟩
    exact ⟨_, h1, congrArg some h2, h3⟩
  · rintro ⟨⟨key, v⟩, h1, h2, h3⟩
    rcases key with _ | key
    · cases h2
    · exact ⟨key, v, h1, Option.some.inj h2, h3⟩

theorem elementsOf_unwrap (gs : List AGroup) (t : Trivia) (ml : Bool) : elementsOf (.array gs t ml) = gs.flatMap fun g => match g with
    | .noval .. => []
    | .val _ v _ _ => if v.isWhitespace || v.isComment || v.isNull then [] else [v] := by
  show (gs.flatMap _).filter Item.isData = _
  induction gs with
  | nil => rfl
  | cons g r ih =>
    rw [List.flatMap_cons, List.flatMap_cons, List.filter_append, ih]
    congr 1
    cases g with
    | noval i c m => rfl
    | val i v c m =>
      have hd : v.isData = !(v.isWhitespace || v.isComment || v.isNull) := rfl
      simp only [List.filter_cons, List.filter_nil]
      by_cases h : (v.isWhitespace || v.isComment || v.isNull) = true
      · rw [if_pos h, if_neg (by rw [hd, h]; decide)]
      · rw [if_neg h, if_pos (by rw [hd]; simpa using h)]

theorem unwrap_written (n : Nat) :
    (∀ {i : Item} {v : PyVal}, i.Good Cont.WF → Item.unwrap n i = .ok v → ∀ p s, look p v = some s ↔ Written p i s) ∧
    (∀ {l : List Item} {vs : List PyVal}, (∀ i ∈ l, i.Good Cont.WF) → unwrapAll n l = .ok vs →
      vs.length = l.length ∧ ∀ (j : Nat) p s, (vs[j]?.bind (look p)) = some s ↔ ∃ i, l[j]? = some i ∧ Written p i s) ∧
    (∀ {c : Cont} {l : List PyPair}, c.Good Cont.WF → Cont.unwrap n c = .ok l →
      l.map PyPair.key = c.dict ∧ ∀ k p s, look (.key k :: p) (.dict l) = some s ↔ WrittenB c.body k p s) ∧
    (∀ {c : Cont} {ks : List Str} {l : List PyPair}, c.Good Cont.WF → unwrapKeys n c ks = .ok l →
      l.map PyPair.key = ks ∧ ∀ k ∈ ks, ∀ p s, (pyGet k l).bind (look p) = some s ↔ WrittenB c.body k p s) ∧
    (∀ {c : Cont} {k : Str} {v : PyVal}, c.Good Cont.WF → unwrapKey n c k = .ok v → ∀ p s, look p v = some s ↔ WrittenB c.body k p s) := by
  induction n with
  | zero =>
    refine ⟨?_, ?_, ?_, ?_, ?_⟩
    · intro _ _ _ h; rw [Item.unwrap] at h; cases h
    · intro _ _ _ h; rw [unwrapAll] at h; cases h
    · intro _ _ _ h; rw [Cont.unwrap] at h; cases h
    · intro _ _ _ _ h; rw [unwrapKeys] at h; cases h
    · intro _ _ _ _ h; rw [unwrapKey] at h; cases h
  | succ n ih =>
    obtain ⟨ih1, ih2, ih3, ih4, ih5⟩ := ih
    refine ⟨?_, ?_, ?_, ?_, ?_⟩
    · intro i v hg h p s
      have hsc : ∀ w : PyVal, shapeOf w = .scalar w → itemShape i = .scalar w → entriesOf i = [] → elementsOf i = [] → Except.ok w = (Except.ok v : Except Err PyVal) →
          (look p v = some s ↔ Written p i s) := by
        intro w h1 h2 h3 h4 h5
        cases h5
        rcases p with _ | ⟨k | j, p⟩
        · rw [look_nil, h1]; unfold Written; rw [h2]; simp
        · rw [look_scalar h1]; unfold Written; rw [h3]; simp
        · rw [look_scalar h1]; unfold Written; rw [h4]; simp
      have hdict : ∀ c : Cont, c.Good Cont.WF → itemShape i = .dict → entriesOf i = c.body → elementsOf i = [] →
          (Cont.unwrap n c).map PyVal.dict = .ok v → (look p v = some s ↔ Written p i s) := by
        intro c hc h1 h2 h3 h4
        rcases hu : Cont.unwrap n c with e | l <;> rw [hu] at h4 <;> cases h4
        obtain ⟨h5, h6⟩ := ih3 hc hu
        rcases p with _ | ⟨k | j, p⟩
        · rw [look_nil]; unfold Written; rw [h1]; simp [shapeOf]
        · rw [h6]; unfold Written; rw [h2]; exact Iff.rfl
        · have : look (.idx j :: p) (.dict l) = none := rfl
          rw [this]; unfold Written; rw [h3]; simp
      have hlist : ∀ is : List Item, (∀ i ∈ is, i.Good Cont.WF) → itemShape i = .list is.length → entriesOf i = [] → elementsOf i = is →
          (unwrapAll n is).map PyVal.list = .ok v → (look p v = some s ↔ Written p i s) := by
        intro is hc h1 h2 h3 h4
        rcases hu : unwrapAll n is with e | l <;> rw [hu] at h4 <;> cases h4
        obtain ⟨h5, h6⟩ := ih2 hc hu
        rcases p with _ | ⟨k | j, p⟩
        · rw [look_nil]; unfold Written; rw [h1]; simp [shapeOf, h5]
        · have : look (.key k :: p) (.list l) = none := rfl
          rw [this]; unfold Written; rw [h2]; simp
        · rw [look_idx, h6]
          constructor
          · rintro ⟨x, hx⟩; exact ⟨x, by rw [h3]; exact hx.1, hx.2⟩
          · rintro ⟨x, hx⟩; exact ⟨x, by rw [← h3]; exact hx.1, hx.2⟩
      unfold Item.unwrap at h
      rcases i with _ | _ | _ | _ | _ | _ | _ | _ | _ | ⟨gs, t, ml⟩ | ⟨c, t, new⟩ | tb | ⟨ts, t, nm, pp⟩ | _
      case array =>
        refine hlist _ ?_ rfl rfl rfl (by rw [elementsOf_unwrap]; exact h)
        intro x hx
        rw [elementsOf_unwrap] at hx
        obtain ⟨g, h1, h2⟩ := List.mem_flatMap.1 hx
        have hgg := (Item.good_array _ _ _).1 hg g h1
        cases g with
        | noval i c m => cases h2
        | val i v' c m =>
          simp only at h2
          split at h2
          · cases h2
          · rcases List.mem_singleton.1 h2
            exact hgg
      case inline => exact hdict c hg rfl rfl rfl h
      case table => exact hdict tb.cont ((Tbl.good_iff _).1 hg) rfl rfl rfl h
      case aot =>
        refine hlist (ts.map Item.table) ?_ (by simp [itemShape]) rfl rfl h
        intro x hx
        obtain ⟨t', h1, rfl⟩ := List.mem_map.1 hx
        exact (Item.good_aot _ _ _ _).1 hg t' h1
      all_goals exact hsc _ rfl rfl rfl rfl h
    · intro l vs hg h
      rcases l with _ | ⟨i, r⟩
      · rw [unwrapAll] at h
        cases h
        exact ⟨rfl, fun j p s => by simp⟩
      rw [unwrapAll] at h
      rcases hi : Item.unwrap n i with e | v <;> rw [hi] at h
      · cases h
      simp only at h
      rcases hr : unwrapAll n r with e | vs' <;> rw [hr] at h <;> cases h
      obtain ⟨h1, h2⟩ := ih2 (fun i hi => hg i (List.mem_cons_of_mem _ hi)) hr
      refine ⟨by simp [h1], fun j p s => ?_⟩
      rcases j with _ | j
      · simp only [List.getElem?_cons_zero, Option.bind_some, Option.some.injEq, exists_eq_left']
        exact ih1 (hg i (List.mem_cons_self ..)) hi p s
      · simp only [List.getElem?_cons_succ]
        exact h2 j p s
    · intro c l hg h
      rw [Cont.unwrap] at h
      obtain ⟨h1, h2⟩ := ih4 hg h
      refine ⟨h1, fun k p s => ?_⟩
      rw [look_key]
      by_cases hk : k ∈ c.dict
      · exact h2 k hk p s
      · have hwf : c.WF := ((Cont.good_iff _).1 hg).1
        have hget : ∀ (l : List PyPair), k ∉ l.map PyPair.key → pyGet k l = none := by
          intro l
          induction l with
          | nil => intro _; rfl
          | cons a r ihr =>
            intro hn
            rw [pyGet, if_neg (by
              intro he
              exact hn (List.mem_cons.2 (.inl (by simpa using (beq_iff_eq.1 he).symm))))]
            exact ihr fun hr => hn (List.mem_cons_of_mem _ hr)
        rw [hget l (by rw [h1]; exact hk)]
        simp only [Option.bind_none]
        refine ⟨fun h => (by cases h), ?_⟩
        rw [writtenB_iff]
        rintro ⟨e, h3, h4, _⟩
        obtain ⟨i, hi⟩ := List.mem_iff_getElem?.1 h3
        have : (c.body.map Entry.name)[i]? = some (some k) := by rw [List.getElem?_map, hi]; exact congrArg some h4
        rw [← shape_names] at this
        obtain ⟨is', h5, h6⟩ := (hwf.idx.pos k i).1 this
        exact absurd ((hwf.dictMem k).2 (by rw [h5]; rfl)) hk
    · intro c ks l hg h
      rcases ks with _ | ⟨k, r⟩
      · rw [unwrapKeys] at h
        cases h
        exact ⟨rfl, fun k hk => by cases hk⟩
      rw [unwrapKeys] at h
      rcases hi : unwrapKey n c k with e | v <;> rw [hi] at h
      · cases h
      simp only at h
      rcases hr : unwrapKeys n c r with e | l' <;> rw [hr] at h <;> cases h
      obtain ⟨h1, h2⟩ := ih4 hg hr
      refine ⟨by simp [h1, PyPair.key], fun k' hk' p s => ?_⟩
      by_cases he : k = k'
      · subst he
        rw [pyGet, if_pos (by simp [PyPair.key])]
        exact ih5 hg hi p s
      · rw [pyGet, if_neg (by simpa [PyPair.key] using he)]
        rcases List.mem_cons.1 hk' with h | h
        · exact absurd h.symm he
        · exact h2 k' h p s
    · intro c k v hg h p s
      have hwf : c.WF := ((Cont.good_iff _).1 hg).1
      rw [unwrapKey] at h
      rcases hit : c.item k with e | (it | is) <;> rw [hit] at h <;> simp only at h
      · cases h
      · unfold Cont.item at hit
        rcases hm : mapGet k c.map with _ | is <;> rw [hm] at hit
        · cases hit
        rcases is with _ | ⟨i, _ | _⟩
        · cases hit
        · simp only at hit
          rcases hb : c.body[i]? with _ | e <;> rw [hb] at hit <;> cases hit
          rw [ih1 (good_at hg hb) h, writtenB_iff]
          constructor
          · intro hw
            obtain ⟨h1, h2⟩ := (entry_iff hwf hm e).2 ⟨i, List.mem_singleton.2 rfl, hb⟩
            exact ⟨e, h1, h2, hw⟩
          · rintro ⟨e', h1, h2, h3⟩
            obtain ⟨j, h4, h5⟩ := (entry_iff hwf hm e').1 ⟨h1, h2⟩
            rcases List.mem_singleton.1 h4
            rw [hb] at h5
            cases h5
            exact h3
        · cases hit
      · have hm : mapGet k c.map = some is ∧ is.length ≠ 1 := by
          unfold Cont.item at hit
          rcases hm : mapGet k c.map with _ | is' <;> rw [hm] at hit
          · cases hit
          rcases is' with _ | ⟨i, _ | ⟨j, r⟩⟩
          · cases hit; exact ⟨rfl, by simp⟩
          · simp only at hit
            rcases hb : c.body[i]? with _ | e <;> rw [hb] at hit <;> cases hit
          · cases hit; exact ⟨rfl, by simp⟩
        obtain ⟨hm, hlen⟩ := hm
        have hne := (hwf.idx.ok k is hm).1
        have h1 : 1 < is.length := by
          have : is.length ≠ 0 := fun h => hne (List.length_eq_zero_iff.1 h)
          omega
        have hmulti := hwf.multi k is hm h1
        rcases hp : Cont.mkProxy (fuelFor c (.null {})) c is with e | pc <;> rw [hp] at h
        · cases h
        simp only at h
        rcases hu : Cont.unwrap n pc with e | l <;> rw [hu] at h <;> cases h
        obtain ⟨g1, g2⟩ := mkProxy_holds hg hp
        obtain ⟨g3, g4⟩ := ih3 g1 hu
        have htab : ∀ e : Entry, (e ∈ c.body ∧ e.name = some k) ↔ ∃ tb ∈ tablesAt c.body is, e.v = .table tb ∧ ∃ i ∈ is, c.body[i]? = some e := by
          intro e
          rw [entry_iff hwf hm]
          constructor
          · rintro ⟨i, h2, h3⟩
            have := hmulti i h2
            rw [List.getElem?_map, h3] at this
            rcases e with ⟨key, v⟩
            have hv : v.isTable = true := by
              have := Option.some.inj this
              exact congrArg Prod.snd this
            rcases v with _ | _ | _ | _ | _ | _ | _ | _ | _ | _ | _ | tb | _ | _
            case table =>
              exact ⟨tb, List.mem_filterMap.2 ⟨i, h2, by rw [h3]; rfl⟩, rfl, i, h2, h3⟩
            all_goals cases hv
          · rintro ⟨tb, _, _, h4⟩; exact h4
        have hmem : ∀ tb ∈ tablesAt c.body is, ∃ e ∈ c.body, e.name = some k ∧ e.v = .table tb := by
          intro tb ht
          obtain ⟨i, h2, h3⟩ := List.mem_filterMap.1 ht
          rcases hb : c.body[i]? with _ | ⟨key, v⟩ <;> rw [hb] at h3
          · cases h3
          · obtain ⟨h4, h5⟩ := (entry_iff hwf hm _).2 ⟨i, h2, hb⟩
            refine ⟨_, h4, h5, ?_⟩
            rcases v with _ | _ | _ | _ | _ | _ | _ | _ | _ | _ | _ | tb' | _ | _
            case table => cases h3; rfl
            all_goals cases h3
        rw [writtenB_iff]
        rcases p with _ | ⟨k' | j, p⟩
        · rw [look_nil]
          constructor
          · intro h
            cases h
            rcases his : is with _ | ⟨i, r⟩
            · exact absurd his hne
            have hi : i ∈ is := by rw [his]; exact List.mem_cons_self ..
            have hlt := hmulti i hi
            rw [List.getElem?_map] at hlt
            rcases hb : c.body[i]? with _ | e <;> rw [hb] at hlt
            · cases hlt
            obtain ⟨h2, h3⟩ := (entry_iff hwf hm e).2 ⟨i, hi, hb⟩
            obtain ⟨tb, _, h4, _⟩ := (htab e).1 ⟨h2, h3⟩
            exact ⟨e, h2, h3, by rw [h4]; rfl⟩
          · rintro ⟨e, h2, h3, h4⟩
            obtain ⟨tb, _, h5, _⟩ := (htab e).1 ⟨h2, h3⟩
            rw [h5] at h4
            have h4 : Shape.dict = s := h4
            rw [← h4]; rfl
        · rw [g4, g2]
          constructor
          · rintro ⟨tb, h2, h3⟩
            obtain ⟨e, h4, h5, h6⟩ := hmem tb h2
            exact ⟨e, h4, h5, by rw [h6]; exact h3⟩
          · rintro ⟨e, h2, h3, h4⟩
            obtain ⟨tb, h5, h6, _⟩ := (htab e).1 ⟨h2, h3⟩
            rw [h6] at h4
            exact ⟨tb, h5, h4⟩
        · have : look (.idx j :: p) (.dict l) = none := rfl
          rw [this]
          refine ⟨fun h => (by cases h), ?_⟩
          rintro ⟨e, h2, h3, h4⟩
          obtain ⟨tb, h5, h6, _⟩ := (htab e).1 ⟨h2, h3⟩
          rw [h6] at h4
          obtain ⟨v, h7, _⟩ := h4
          cases h7

end Tomlkit
