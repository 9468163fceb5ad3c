import Verif.Proofs.InlineOps
/-!
# Edits of inline tables inside inline tables
-/
namespace Tomlkit
open _root_.Spec Tomlkit.Spec

/-- a value as it is read, or made by the library -/
inductive Neat : Item → Prop
  | other {v : Item} (h : ∀ ci t, v ≠ .inline ci t false) : Neat v
  | odd {ci : Cont} {t : Trivia} (h : ¬ PlainInline ci) : Neat (.inline ci t false)
  | table {ci : Cont} {t : Trivia} (h : InlineOk ci) (hi : ∀ k v, ci.item k = .ok (.inl v) → Neat v) : Neat (.inline ci t false)

theorem Neat.inv {ci : Cont} {t : Trivia} (h : Neat (.inline ci t false)) (hp : PlainInline ci) :
    InlineOk ci ∧ ∀ k v, ci.item k = .ok (.inl v) → Neat v := by
  cases h with
  | other h => exact absurd rfl (h _ _)
  | odd h => exact absurd hp h
  | table h hi => exact ⟨h, hi⟩

theorem Neat.setTrivia {v : Item} (h : Neat v) (t : Trivia) : Neat (v.setTrivia t) := by
  cases h with
  | other h =>
    refine .other fun ci t' h0 => ?_
    rcases v with _ | _ | _ | _ | _ | _ | _ | _ | _ | _ | ⟨ci', t2, n⟩ | ⟨c, t, a, s, n, d⟩ | ⟨ts, t, nm, p⟩ | _ <;> first | (cases h0; done) | skip
    cases h0
    exact h _ _ rfl
  | odd h => exact .odd h
  | table h hi => exact .table h hi

/-- `w` is the data of the value -/
inductive Rep : PyVal → Item → Prop
  | other {w : PyVal} {v : Item} (h : ∀ ci t, v ≠ .inline ci t false) (hw : Worth w v) : Rep w v
  | odd {w : PyVal} {ci : Cont} {t : Trivia} (h : ¬ PlainInline ci) (hw : Worth w (.inline ci t false)) : Rep w (.inline ci t false)
  | dict {l : List PyPair} {ci : Cont} {t : Trivia} (hn : (l.map PyPair.key).Nodup) (hd : ci.dict.Nodup) (hk : ∀ k, k ∈ ci.dict ↔ k ∈ l.map PyPair.key)
      (he : ∀ k w, PyPair.mk k w ∈ l → ∃ v, ci.item k = .ok (.inl v)) (hi : ∀ k w v, PyPair.mk k w ∈ l → ci.item k = .ok (.inl v) → Rep w v) : Rep (.dict l) (.inline ci t false)

theorem Rep.dict' {l : List PyPair} {ci : Cont} {t : Trivia} (hn : (l.map PyPair.key).Nodup) (hd : ci.dict.Nodup) (hk : ∀ k, k ∈ ci.dict ↔ k ∈ l.map PyPair.key)
    (hi : ∀ k w, PyPair.mk k w ∈ l → ∃ v, ci.item k = .ok (.inl v) ∧ Rep w v) : Rep (.dict l) (.inline ci t false) := by
  refine .dict hn hd hk (fun k w h => ?_) fun k w v h hv => ?_
  · obtain ⟨v, h1, _⟩ := hi k w h
    exact ⟨v, h1⟩
  · obtain ⟨v', h1, h2⟩ := hi k w h
    rw [hv] at h1
    cases h1
    exact h2

theorem Rep.setTrivia {w : PyVal} {v : Item} (h : Rep w v) (t : Trivia) : Rep w (v.setTrivia t) := by
  cases h with
  | other h hw =>
    refine .other (fun ci t' h0 => ?_) (hw.setTrivia t)
    rcases v with _ | _ | _ | _ | _ | _ | _ | _ | _ | _ | ⟨ci', t2, n⟩ | ⟨c, t, a, s, n, d⟩ | ⟨ts, t, nm, p⟩ | _ <;> first | (cases h0; done) | skip
    cases h0
    exact h _ _ rfl
  | odd h hw => exact .odd h (hw.setTrivia t)
  | dict h1 h2 h3 h4 h5 => exact .dict h1 h2 h3 h4 h5

/-- the data of a value that unwraps -/
theorem Neat.rep {v : Item} (h : Neat v) : ∀ {w : PyVal}, (∃ n, v.unwrap n = .ok w) → Rep w v := by
  induction h with
  | other h =>
    rintro w ⟨n, hn⟩
    exact .other h ⟨w, ⟨n, fun m hm => Item.unwrap_more hn hm⟩, same_refl w⟩
  | odd h =>
    rintro w ⟨n, hn⟩
    exact .odd h ⟨w, ⟨n, fun m hm => Item.unwrap_more hn hm⟩, same_refl w⟩
  | @table ci t h _ ih =>
    rintro w ⟨n, hn⟩
    rcases n with _ | n
    · rw [Item.unwrap] at hn; cases hn
    have hn : (Cont.unwrap n ci).map PyVal.dict = .ok w := hn
    rcases n with _ | n
    · rw [Cont.unwrap] at hn; cases hn
    rw [Cont.unwrap] at hn
    rcases hk : unwrapKeys n ci ci.dict with e | l <;> rw [hk] at hn <;> cases hn
    obtain ⟨h1, h2⟩ := unwrapKeys_inv hk
    refine .dict' (by rw [h1]; exact h.wf.dictNodup) h.wf.dictNodup (fun k => by rw [h1]) fun k w hkw => ?_
    obtain ⟨m, hm⟩ := h2 k w hkw
    have hkd : k ∈ ci.dict := by rw [← h1]; exact List.mem_map_of_mem (f := PyPair.key) hkw
    obtain ⟨_, _, v, _, _, _, hv⟩ := h.at hkd
    refine ⟨v, hv, ih k v hv ?_⟩
    rcases m with _ | m
    · rw [unwrapKey] at hm; cases hm
    · rw [unwrapKey, hv] at hm
      exact ⟨m, hm⟩

theorem Rep.worth {w : PyVal} {v : Item} (h : Rep w v) : Worth w v := by
  induction h with
  | other _ hw => exact hw
  | odd _ hw => exact hw
  | @dict l ci t hn hd hk he hi ih =>
    obtain ⟨l', ⟨n0, h1⟩, h2, h3⟩ := keys_unwrap (c := ci) (fun k w => ∃ v, PyPair.mk k v ∈ l ∧ Same v w) ci.dict fun k hkd => by
      obtain ⟨⟨k', w⟩, hp, hpk⟩ := List.mem_map.1 ((hk k).1 hkd)
      have : k' = k := hpk
      subst this
      obtain ⟨v, g1⟩ := he _ _ hp
      obtain ⟨w', ⟨m, g2⟩, g3⟩ := ih _ _ _ hp g1
      refine ⟨w', ⟨w, hp, g3⟩, m + 1, fun n hn => ?_⟩
      obtain ⟨n, rfl⟩ : ∃ j, n = j + 1 := ⟨n - 1, by omega⟩
      rw [unwrapKey, g1]
      exact g2 n (by omega)
    refine ⟨.dict l', ⟨n0 + 2, fun n hn => ?_⟩, same_dict hn (by rw [h2]; exact hd) (fun k => by rw [h2, hk]) h3⟩
    obtain ⟨n, rfl⟩ : ∃ j, n = j + 2 := ⟨n - 2, by omega⟩
    show (Cont.unwrap (n + 1) ci).map PyVal.dict = _
    rw [Cont.unwrap, h1 n (by omega)]
    rfl

theorem Rep.inv {w : PyVal} {ci : Cont} {t : Trivia} (h : Rep w (.inline ci t false)) (hp : PlainInline ci) :
    ∃ l, w = .dict l ∧ (l.map PyPair.key).Nodup ∧ (∀ k, k ∈ ci.dict ↔ k ∈ l.map PyPair.key) ∧ ∀ k w, PyPair.mk k w ∈ l → ∃ v, ci.item k = .ok (.inl v) ∧ Rep w v := by
  cases h with
  | other h => exact absurd rfl (h _ _)
  | odd h => exact absurd hp h
  | dict h1 h2 h3 h4 h5 =>
    refine ⟨_, rfl, h1, h3, fun k w h => ?_⟩
    obtain ⟨v, hv⟩ := h4 k w h
    exact ⟨v, hv, h5 k w v h hv⟩

/-! ### what an edit does -/

theorem dictHas_iff {l : List PyPair} {k : Str} : dictHas l k = true ↔ k ∈ l.map PyPair.key := by
  unfold dictHas
  rw [List.any_eq_true, List.mem_map]
  simp

theorem dictPut_keys (l : List PyPair) (k : Str) (w : PyVal) : (dictPut l k w).map PyPair.key = l.map PyPair.key := by
  unfold dictPut
  rw [List.map_map]
  apply List.map_congr_left
  intro p hp
  show (if p.key = k then PyPair.mk k w else p).key = p.key
  split
  · rename_i h; rw [h]; rfl
  · rfl

theorem mem_dictPut {l : List PyPair} {k : Str} {w : PyVal} {k' : Str} {w' : PyVal} (h : PyPair.mk k' w' ∈ dictPut l k w) :
    (k' = k ∧ w' = w) ∨ (k' ≠ k ∧ PyPair.mk k' w' ∈ l) := by
  unfold dictPut at h
  obtain ⟨p, hp, h⟩ := List.mem_map.1 h
  split at h
  · cases h; exact .inl ⟨rfl, rfl⟩
  · rename_i hne
    subst h
    exact .inr ⟨hne, hp⟩

theorem Slot.dictNodup {c c' : Cont} {k : Str} {v : Option Item} (h : Slot c k v c') : c'.dict.Nodup := h.ok.wf.dictNodup

theorem Slot.neat {c c' : Cont} {k : Str} {v : Option Item} (h : Slot c k v c') (hi : ∀ k v, c.item k = .ok (.inl v) → Neat v)
    (hv : ∀ w, v = some w → Neat w) (t : Trivia) : Neat (.inline c' t false) := by
  refine .table h.ok fun k' w hw => ?_
  have hd : k' ∈ c'.dict := by
    obtain ⟨i, _, hm, _⟩ := item_single.1 hw
    exact (h.ok.wf.dictMem k').2 (by rw [hm]; rfl)
  by_cases hk : k' = k
  · subst hk
    rcases v with _ | v
    · exact absurd hd (h.gone rfl)
    · have := (h.at_ v rfl).2
      rw [this] at hw
      cases hw
      exact hv _ rfl
  · rw [h.items k' hk ((h.keys k' hk).1 hd)] at hw
    exact hi _ _ hw

theorem Slot.rep_put {c c' : Cont} {k : Str} {v : Item} (h : Slot c k (some v) c') {l : List PyPair} (hn : (l.map PyPair.key).Nodup)
    (hk : ∀ k, k ∈ c.dict ↔ k ∈ l.map PyPair.key) (hi : ∀ k w, PyPair.mk k w ∈ l → ∃ v, c.item k = .ok (.inl v) ∧ Rep w v) {w : PyVal} (hw : Rep w v) (t : Trivia) :
    Rep (.dict (if dictHas l k then dictPut l k w else l ++ [.mk k w])) (.inline c' t false) := by
  have hkey : ∀ k', k' ∈ c'.dict ↔ k' = k ∨ k' ∈ c.dict := by
    intro k'
    by_cases h0 : k' = k
    · subst h0; simp [(h.at_ v rfl).1]
    · rw [h.keys k' h0]; simp [h0]
  have hold : ∀ k' w', k' ≠ k → PyPair.mk k' w' ∈ l → ∃ v, c'.item k' = .ok (.inl v) ∧ Rep w' v := by
    intro k' w' hne hm
    rw [h.items k' hne ((hk k').2 (List.mem_map_of_mem (f := PyPair.key) hm))]
    exact hi _ _ hm
  by_cases hh : dictHas l k = true
  · rw [if_pos hh]
    rw [dictHas_iff] at hh
    refine .dict' (by rw [dictPut_keys]; exact hn) h.dictNodup (fun k' => ?_) fun k' w' hm => ?_
    · rw [hkey, hk, dictPut_keys]
      constructor
      · rintro (rfl | h) <;> assumption
      · exact .inr
    · rcases mem_dictPut hm with ⟨rfl, rfl⟩ | ⟨hne, hm⟩
      · exact ⟨v, (h.at_ v rfl).2, hw⟩
      · exact hold _ _ hne hm
  · rw [if_neg hh]
    rw [dictHas_iff] at hh
    refine .dict' ?_ h.dictNodup (fun k' => ?_) fun k' w' hm => ?_
    · rw [List.map_append, List.nodup_append]
      refine ⟨hn, by simp, ?_⟩
      intro a ha b hb
      simp only [List.map_cons, List.map_nil, List.mem_singleton] at hb
      rintro rfl
      subst hb
      exact hh ha
    · rw [hkey, hk, List.map_append, List.mem_append]
      simp only [List.map_cons, List.map_nil, List.mem_singleton, PyPair.key]
      exact Or.comm
    · rcases List.mem_append.1 hm with hm1 | hm
      · refine hold _ _ ?_ hm1
        rintro rfl
        exact hh (List.mem_map_of_mem (f := PyPair.key) hm1)
      · rw [List.mem_singleton] at hm
        cases hm
        exact ⟨v, (h.at_ v rfl).2, hw⟩

theorem Slot.rep_del {c c' : Cont} {k : Str} (h : Slot c k none c') {l : List PyPair} (hn : (l.map PyPair.key).Nodup)
    (hk : ∀ k, k ∈ c.dict ↔ k ∈ l.map PyPair.key) (hi : ∀ k w, PyPair.mk k w ∈ l → ∃ v, c.item k = .ok (.inl v) ∧ Rep w v) (t : Trivia) :
    Rep (.dict (l.filter fun p => !(p.key == k))) (.inline c' t false) := by
  refine .dict' ((List.filter_sublist.map _).nodup hn) h.dictNodup (fun k' => ?_) fun k' w' hm => ?_
  · by_cases h0 : k' = k
    · subst h0
      refine ⟨fun h1 => absurd h1 (h.gone rfl), fun h1 => ?_⟩
      obtain ⟨p, hp, h2⟩ := List.mem_map.1 h1
      have := (List.mem_filter.1 hp).2
      simp [h2] at this
    · rw [h.keys k' h0, hk]
      constructor
      · intro h1
        obtain ⟨p, hp, h2⟩ := List.mem_map.1 h1
        exact List.mem_map.2 ⟨p, List.mem_filter.2 ⟨hp, by simp [h2, h0]⟩, h2⟩
      · intro h1
        obtain ⟨p, hp, h2⟩ := List.mem_map.1 h1
        exact List.mem_map.2 ⟨p, (List.mem_filter.1 hp).1, h2⟩
  · obtain ⟨h1, h2⟩ := List.mem_filter.1 hm
    have hne : k' ≠ k := by
      rintro rfl
      simp [PyPair.key] at h2
    rw [h.items k' hne ((hk k').2 (List.mem_map_of_mem (f := PyPair.key) h1))]
    exact hi _ _ h1

/-- an inline table made by the library has not been read -/
theorem built_unparsed {w : PyVal} (h1 : KeysOnce w) (h2 : Writable w) {p : Parent} {ci : Cont} {t : Trivia} {n : Bool} (h : w.toItem false p = .ok (.inline ci t n)) : ci.parsed = false := by
  cases w
  case list l =>
    unfold PyVal.toItem at h
    split at h
    · rcases ht : l.toTables false with e | ts <;> rw [ht] at h <;> cases h
    · rcases ht : l.toElems false with e | is <;> rw [ht] at h
      · cases h
      · simp only [buildArray] at h
        rcases hx : (mkArray []).extend is with e | a <;> rw [hx] at h <;> cases h
  case dict l =>
    unfold KeysOnce at h1
    have hinl : (match l.toChildren false .inline with
        | .error e => .error e
        | .ok cs => (buildInline (dictOrder false cs)).map fun c => Item.inline c {} false) = Except.ok (.inline ci t n) → ci.parsed = false := by
      intro h
      rcases ht : l.toChildren false .inline with e | cs <;> rw [ht] at h
      · cases h
      · have hc := children_lit (q := True) l h1.2 (proper_dict h2) false cs ht
        have hn : ((dictOrder false cs).map Child.key).Nodup := by
          have := (dictOrder_perm false cs).map Child.key
          rw [this.nodup_iff, children_keys ht]; exact h1.1
        obtain ⟨c, ps, l, e1, e2, e3, e4⟩ := fold_lit (q := True) Child.key inlineVal (dictOrder false cs) built_empty .nil rfl
          (fun ch hm => by obtain ⟨w, hw⟩ := hc ch ((dictOrder_perm false cs).mem_iff.1 hm); exact ⟨w, fresh_inlineVal hw⟩) (by simpa [Cont.empty] using hn)
        have e1 : buildInline (dictOrder false cs) = .ok c := by rw [buildInline_eq]; exact e1
        simp only [e1] at h
        cases h
        exact e2.parsed
    rcases p with _ | _ | _ | _ <;> unfold PyVal.toItem at h
    · rcases ht : l.toChildren false .table with e | cs <;> rw [ht] at h
      · cases h
      · rcases hb : buildTable false (dictOrder false cs) with e | t <;> simp only [hb] at h <;> cases h
    · rcases ht : l.toChildren false .table with e | cs <;> rw [ht] at h
      · cases h
      · rcases hb : buildTable false (dictOrder false cs) with e | t <;> simp only [hb] at h <;> cases h
    · exact hinl h
    · exact hinl h
  all_goals (unfold PyVal.toItem at h; cases h; done)

/-- a value made by the library -/
theorem made_in {w : PyVal} {p : Parent} (h : OneLine w p) : ∃ v, w.toItem false p = .ok v ∧ Neat v ∧ Rep w v ∧ (isDay w = false → InVal v) := by
  obtain ⟨v, h1, hm⟩ := oneLine_made h
  have hnt := oneLine_noTable h h1
  obtain ⟨w2, hfr⟩ := item_lit (q := True) w h.1 h.2.1 false p v h1 hnt
  have hun : ∀ ci t n, v = .inline ci t n → ¬ PlainInline ci := by
    rintro ci t n rfl hp
    have := built_unparsed h.1 h.2.1 h1
    rw [hp.1] at this; cases this
  refine ⟨v, h1, ?_, ?_, fun hd => ⟨hfr.lit.rereads, hfr.triv.indent, hm.noComment, hm.noWs, by rw [hm.trail]; rfl, ?_⟩⟩
  · by_cases hx : ∃ ci t, v = .inline ci t false
    · obtain ⟨ci, t, rfl⟩ := hx
      exact .odd (hun _ _ _ rfl)
    · exact .other fun ci t h0 => hx ⟨ci, t, h0⟩
  · by_cases hx : ∃ ci t, v = .inline ci t false
    · obtain ⟨ci, t, rfl⟩ := hx
      exact .odd (hun _ _ _ rfl) hm.worth
    · exact .other (fun ci t h0 => hx ⟨ci, t, h0⟩) hm.worth
  · have := hm.worth
    obtain ⟨w', ⟨n0, h3⟩, h4⟩ := this
    have h3 := h3 (n0 + 1) (by omega)
    rcases hdv : v.isDated with _ | _
    · rfl
    exfalso
    have hd' : isDay w' = true := by
      cases v <;> first | (cases hdv; done) | (rw [Item.unwrap] at h3; cases h3; rfl)
    cases w <;> unfold Same at h4 <;> first | (cases hd; done) | (subst h4; cases hd'; done) | (obtain ⟨_, rfl, _⟩ := h4; cases hd'; done)

/-- Edits of an inline table, or of one inside it. -/
theorem inside_ok (e : DictEdit) : ∀ (ks : List Str) (ci : Cont) (t : Trivia), e.Fit ks ci → Neat (.inline ci t false) →
    ∃ op c', e.op = .ok op ∧ Cont.atPath op (ks.map .key) (.inline t false) ci = .ok c' ∧ InlineOk c' ∧ Neat (.inline c' t false) ∧
      ∀ w, Rep w (.inline ci t false) → ∃ w', e.within ks w = .ok w' ∧ Rep w' (.inline c' t false)
  | [], ci, t, hf, hn => by
    obtain ⟨hp, hf⟩ := hf
    obtain ⟨hok, hi⟩ := hn.inv hp
    rcases e with ⟨k, w⟩ | ⟨k, w⟩ | k
    · obtain ⟨v, h1, h2, h3, h4⟩ := made_in hf.1
      have h4 := h4 hf.2
      have : ∃ t' c', Op.run (.inline t false) ci (.set k v) = .ok c' ∧ Slot ci k (some (v.setTrivia t')) c' := by
        by_cases hk : k ∈ ci.dict
        · exact hok.set hk h4
        · exact hok.put hk h4
      obtain ⟨t', c', g1, g2⟩ := this
      refine ⟨.set k v, c', ?_, g1, g2.ok, g2.neat hi (fun w hw => by cases hw; exact h2.setTrivia _) t, fun w0 hw0 => ?_⟩
      · show (w.toItem false .inline).map _ = _
        rw [h1]; rfl
      · obtain ⟨l, rfl, l1, l2, l3⟩ := hw0.inv hp
        exact ⟨_, rfl, g2.rep_put l1 l2 l3 (h3.setTrivia _) t⟩
    · obtain ⟨v, h1, h2, h3, h4⟩ := made_in hf.2.1
      have h4 := h4 hf.2.2
      obtain ⟨t', c', g1, g2⟩ := hok.add (t := t) hf.1 h4
      refine ⟨.append k v, c', ?_, g1, g2.ok, g2.neat hi (fun w hw => by cases hw; exact h2.setTrivia _) t, fun w0 hw0 => ?_⟩
      · show (w.toItem false .inline).map _ = _
        rw [h1]; rfl
      · obtain ⟨l, rfl, l1, l2, l3⟩ := hw0.inv hp
        have hh : ¬ dictHas l k = true := by
          rw [dictHas_iff, ← l2]; exact hf.1
        have := g2.rep_put l1 l2 l3 (h3.setTrivia t') t
        rw [if_neg hh] at this
        refine ⟨_, ?_, this⟩
        show ((if dictHas l k = true then _ else _ : Except Err (List PyPair))).map PyVal.dict = _
        rw [if_neg hh]
        rfl
    · obtain ⟨c', g1, g2⟩ := hok.del (t := t) (new := false) hf
      refine ⟨.remove k, c', rfl, g1, g2.ok, g2.neat hi (fun w hw => by cases hw) t, fun w0 hw0 => ?_⟩
      obtain ⟨l, rfl, l1, l2, l3⟩ := hw0.inv hp
      have hh : dictHas l k = true := by
        rw [dictHas_iff, ← l2]; exact hf
      refine ⟨_, ?_, g2.rep_del l1 l2 l3 t⟩
      show ((if dictHas l k = true then _ else _ : Except Err (List PyPair))).map PyVal.dict = _
      rw [if_pos hh]
      rfl
  | k :: r, ci, t, hf, hn => by
    obtain ⟨hp, cj, tj, hj, hf⟩ := hf
    obtain ⟨hok, hi⟩ := hn.inv hp
    obtain ⟨op, c1, g0, g1, g2, g3, g4⟩ := inside_ok e r cj tj hf (hi _ _ hj)
    have hd : k ∈ ci.dict := by
      obtain ⟨i, _, hm, _⟩ := item_single.1 hj
      exact (hok.wf.dictMem k).2 (by rw [hm]; rfl)
    obtain ⟨i, key, v, hm, hb, hkk, hv⟩ := hok.at hd
    rw [hj] at hv
    cases hv
    have hlt := (List.getElem?_eq_some_iff.1 hb).1
    have hs := hok.change (v := .inline c1 tj false) hm hb hkk (m := ci.map) (fun _ => rfl) (hok.wf.of_shape (by
      rw [List.map_set]
      apply List.ext_getElem?
      intro j
      rw [List.getElem?_set]
      by_cases hij : i = j
      · subst hij
        rw [if_pos rfl, List.getElem?_map, hb]
        simp [hlt]
        rfl
      · rw [if_neg hij]) _ _) (by
      have := hok.ents _ (List.mem_of_getElem? hb)
      cases this with
      | kv h1 h2 h3 h4 h5 h6 => exact .kv h1 (g2.rereads tj) h3 h4 h5 rfl)
    refine ⟨op, .mk (ci.body.set i (.mk (some key) (.inline c1 tj false))) ci.map ci.dict ci.parsed ci.tableKeys, g0, ?_, hs.ok, hs.neat hi (fun w hw => by cases hw; exact g3) t, fun w0 hw0 => ?_⟩
    · show Cont.atPath op (.key k :: r.map .key) _ ci = _
      unfold Cont.atPath
      rw [hm]
      dsimp only
      rw [hb]
      dsimp only
      rw [g1]
      rfl
    · obtain ⟨l, rfl, l1, l2, l3⟩ := hw0.inv hp
      have hh : dictHas l k = true := by
        rw [dictHas_iff, ← l2]; exact hd
      obtain ⟨⟨k', w⟩, hpl, hpk⟩ := List.mem_map.1 (dictHas_iff.1 hh)
      have : k' = k := hpk
      subst this
      rcases hfi : l.find? fun p => p.key == k' with _ | ⟨k2, w2⟩
      · rw [List.find?_eq_none] at hfi
        exact absurd (by simp [PyPair.key]) (hfi _ hpl)
      · have h2 : k2 = k' := by simpa [PyPair.key] using List.find?_some hfi
        subst h2
        have hmem := List.mem_of_find?_eq_some hfi
        obtain ⟨v, v1, v2⟩ := l3 _ _ hmem
        rw [hj] at v1
        cases v1
        obtain ⟨w', f1, f2⟩ := g4 _ v2
        refine ⟨.dict (dictPut l k2 w'), ?_, ?_⟩
        · rw [DictEdit.within, hfi]
          show (DictEdit.within e r w2).map _ = _
          rw [f1]; rfl
        · have := hs.rep_put l1 l2 l3 f2 t
          rw [if_pos hh] at this
          exact this

end Tomlkit
