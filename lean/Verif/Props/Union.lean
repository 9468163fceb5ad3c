import Verif.Proofs.UnwrapAll
import Verif.Proofs.Consist
import Verif.Spec.Convert
/-!
# Tables written in several places: C32
-/
namespace Tomlkit
open _root_.Spec Tomlkit.Spec

/-! ### `merge_dicts` -/

theorem pyGet_set (k k' : Str) (v : PyVal) (l : List PyPair) : pyGet k (pySetKey k' v l) = if k' = k then some v else pyGet k l := by
  induction l with
  | nil =>
    unfold pySetKey
    by_cases h : k' = k
    · subst h; simp [pyGet, PyPair.key, PyPair.val]
    · simp [pyGet, PyPair.key, h]
  | cons a r ih =>
    unfold pySetKey
    by_cases ha : a.key = k'
    · rw [if_pos (by simpa using ha)]
      by_cases h : k' = k
      · subst h; simp [pyGet, PyPair.key, PyPair.val]
      · rw [if_neg h, pyGet, pyGet, if_neg (by simpa [PyPair.key] using h), if_neg (by rw [ha]; simpa using h)]
    · rw [if_neg (by simpa using ha), pyGet, pyGet, ih]
      by_cases hk : a.key = k
      · have hne : k' ≠ k := by rintro rfl; exact ha hk
        simp [hk, hne]
      · simp [hk]

theorem pyGet_none {k : Str} : ∀ {l : List PyPair}, k ∉ l.map PyPair.key → pyGet k l = none
  | [], _ => rfl
  | a :: r, hn => by
    rw [pyGet, if_neg (by
      intro he
      exact hn (List.mem_cons.2 (.inl (by simpa using (beq_iff_eq.1 he).symm))))]
    exact pyGet_none fun hr => hn (List.mem_cons_of_mem _ hr)

/-- one key of the merged dict -/
theorem pyGet_merge (k : Str) : ∀ (l2 l1 : List PyPair), (l2.map PyPair.key).Nodup →
    pyGet k (mergeDicts l1 l2) = match pyGet k l2 with
      | none => pyGet k l1
      | some v => some (mergeVal (pyGet k l1) v)
  | [], l1, _ => rfl
  | .mk k0 v0 :: r, l1, h => by
    have hn : k0 ∉ r.map PyPair.key := (List.nodup_cons.1 h).1
    rw [mergeDicts, pyGet_merge k r _ (List.nodup_cons.1 h).2, mergePair]
    by_cases hk : k0 = k
    · subst hk
      rw [pyGet_none hn, pyGet_set, if_pos rfl]
      simp [pyGet, PyPair.key, PyPair.val]
    · have e : pyGet k (PyPair.mk k0 v0 :: r) = pyGet k r := by
        rw [pyGet, if_neg (by simpa [PyPair.key] using hk)]
      rw [e, pyGet_set, if_neg hk]

theorem keysOnce_get {k : Str} {v : PyVal} : ∀ {l : List PyPair}, KeysOnceIn l → pyGet k l = some v → KeysOnce v
  | .mk k0 v0 :: r, h, hg => by
    rw [pyGet] at hg
    split at hg
    · cases hg; exact h.1
    · exact keysOnce_get h.2 hg

theorem mergeVal_dict (l1 l2 : List PyPair) : mergeVal (some (.dict l1)) (.dict l2) = .dict (mergeDicts l1 l2) := rfl
theorem mergeVal_other {o : Option PyVal} {v : PyVal} (h : ∀ w, o = some w → ¬ (w.isDict = true ∧ v.isDict = true)) : mergeVal o v = v := by
  rcases v with _ | _ | _ | _ | _ | _ | _ | _ | _ | l
  case dict =>
    rcases o with _ | w
    · rfl
    · have := h w rfl
      rcases w with _ | _ | _ | _ | _ | _ | _ | _ | _ | l'
      case dict => exact absurd ⟨rfl, rfl⟩ this
      all_goals rfl
  all_goals rfl

/-- C32, `merge_dicts(d1, d2)`: at every place, the result has what `d2` has there, and otherwise what `d1` has, unless on the way there `d1` and
`d2` have something that is not a dict in both: nothing is lost except where both have something, and then `d2` wins. -/
theorem C32_merge_dicts : ∀ (p : List Hop) (d1 d2 : List PyPair), KeysOnce (.dict d2) → ∀ s,
    look p (.dict (mergeDicts d1 d2)) = some s ↔ look p (.dict d2) = some s ∨ (look p (.dict d1) = some s ∧ LeftAlone p (.dict d1) (.dict d2))
  | [], d1, d2, h, s => by
    rw [look_nil, look_nil]
    refine ⟨.inl, ?_⟩
    rintro (h | ⟨_, h, _⟩)
    · exact h
    · cases h
  | .idx i :: p, d1, d2, h, s => by
    have e : ∀ d, look (.idx i :: p) (.dict d) = none := fun _ => rfl
    rw [e, e, e]
    simp
  | .key k :: p, d1, d2, h, s => by
    rw [look_key, look_key, look_key, pyGet_merge k d2 d1 h.1]
    have hv : ∀ d : List PyPair, valAt [.key k] (.dict d) = pyGet k d := by
      intro d
      rw [valAt]
      cases pyGet k d <;> rfl
    have hv2 : ∀ (q : List Hop) (d : List PyPair), valAt (.key k :: q) (.dict d) = (pyGet k d).bind (valAt q) := fun _ _ => rfl
    rcases h2 : pyGet k d2 with _ | v2
    · simp only [Option.bind_none, reduceCtorEq, false_or]
      refine ⟨fun h1 => ⟨h1, ?_, ?_⟩, fun h1 => h1.1⟩
      · rw [hv2, h2]; rfl
      · intro q r hq w1 w2 hw1 hw2
        rcases q with _ | ⟨a, q⟩
        · cases hw1; cases hw2; exact ⟨rfl, rfl⟩
        · cases hq
          rw [hv2, h2] at hw2
          cases hw2
    · simp only [Option.bind_some]
      have hone : ∀ w1, pyGet k d1 = some w1 → LeftAlone (.key k :: p) (.dict d1) (.dict d2) → w1.isDict = true ∧ v2.isDict = true := by
        intro w1 h1 hl
        exact hl.2 [.key k] p rfl w1 v2 (by rw [hv, h1]) (by rw [hv, h2])
      by_cases hd : ∃ w1, pyGet k d1 = some w1 ∧ w1.isDict = true ∧ v2.isDict = true
      · obtain ⟨w1, h1, hw1, hw2⟩ := hd
        rcases w1 with _ | _ | _ | _ | _ | _ | _ | _ | _ | l1
        case dict =>
          rcases v2 with _ | _ | _ | _ | _ | _ | _ | _ | _ | l2
          case dict =>
            rw [h1, mergeVal_dict]
            rw [C32_merge_dicts p l1 l2 (keysOnce_get h.2 h2) s]
            simp only [Option.bind_some]
            refine or_congr Iff.rfl (and_congr Iff.rfl ?_)
            constructor
            · rintro ⟨a1, a2⟩
              refine ⟨by rw [hv2, h2]; exact a1, ?_⟩
              intro q r hq w1 w2 hw1 hw2
              rcases q with _ | ⟨a, q⟩
              · cases hw1; cases hw2; exact ⟨rfl, rfl⟩
              · cases hq
                rw [hv2, h2] at hw2
                rw [hv2, h1] at hw1
                exact a2 q r rfl w1 w2 hw1 hw2
            · rintro ⟨a1, a2⟩
              rw [hv2, h2] at a1
              refine ⟨a1, ?_⟩
              intro q r hq w1 w2 hw1 hw2
              refine a2 (.key k :: q) r (by rw [hq]; rfl) w1 w2 ?_ ?_
              · rw [hv2, h1]; exact hw1
              · rw [hv2, h2]; exact hw2
          all_goals cases hw2
        all_goals cases hw1
      · rw [mergeVal_other (by intro w hw hb; exact hd ⟨w, hw, hb⟩)]
        refine ⟨.inl, ?_⟩
        rintro (h1 | ⟨h1, h3⟩)
        · exact h1
        · rcases hg : pyGet k d1 with _ | w1
          · rw [hg] at h1; cases h1
          · exact absurd ⟨w1, hg, hone w1 hg h3⟩ hd

/-- two dicts: both have `a` as a dict and `b`, only one has `c` -/
example : look [.key (t!"a"), .key (t!"x")] (.dict (mergeDicts
    [.mk (t!"a") (.dict [.mk (t!"x") (.int 1)]), .mk (t!"b") (.int 1), .mk (t!"c") (.int 1)]
    [.mk (t!"a") (.dict [.mk (t!"y") (.int 2)]), .mk (t!"b") (.int 2)])) = some (.scalar (.int 1)) ∧
  look [.key (t!"b")] (.dict (mergeDicts
    [.mk (t!"a") (.dict [.mk (t!"x") (.int 1)]), .mk (t!"b") (.int 1), .mk (t!"c") (.int 1)]
    [.mk (t!"a") (.dict [.mk (t!"y") (.int 2)]), .mk (t!"b") (.int 2)])) = some (.scalar (.int 2)) := ⟨rfl, rfl⟩

/-! ### the unwrapped document -/

/-- C32: when `doc.unwrap()` returns, it has each key once and holds at every place exactly what is written there, in any part of any table. So every leaf
of every part is there, nothing else is, and no two parts disagree. -/
theorem C32_unwrap (c : Cont) (h : Every Consistent c) (n : Nat) (l : List PyPair) (hu : Cont.unwrap n c = .ok l) :
    (l.map PyPair.key).Nodup ∧ (∀ k p s, look (.key k :: p) (.dict l) = some s ↔ WrittenIn c k p s) ∧
    ∀ k p s s', WrittenIn c k p s → WrittenIn c k p s' → s = s' := by
  have hg := (every_iff c).1 h
  obtain ⟨h1, h2⟩ := (unwrap_written n).2.2.1 hg hu
  refine ⟨?_, h2, ?_⟩
  · rw [h1]; exact ((Cont.good_iff _).1 hg).1.dictNodup
  · intro k p s s' hs hs'
    have a := (h2 k p s).2 hs
    rw [(h2 k p s').2 hs'] at a
    exact (Option.some.inj a).symm

/-- C32 from a text: every parsed document is consistent. -/
theorem C32_parse_unwrap (t : Str) (c : Cont) (h : parse t = .ok c) (n : Nat) (l : List PyPair) (hu : Cont.unwrap n c = .ok l) :
    (l.map PyPair.key).Nodup ∧ ∀ k p s, look (.key k :: p) (.dict l) = some s ↔ WrittenIn c k p s :=
  have g := C32_unwrap c ((every_iff c).2 ((parse_all t).1 c h)) n l hu
  ⟨g.1, g.2.1⟩

/-- C32 for what stands at one place in several parts: the same leaf is written in no two different ways. In particular a document with the same key in two parts
of a table cannot be unwrapped. -/
example (c : Cont) (h : Every Consistent c) (n : Nat) (hw : WrittenIn c (t!"a") [.key (t!"x")] (.scalar (.int 1)))
    (hw' : WrittenIn c (t!"a") [.key (t!"x")] (.scalar (.int 2))) : ∀ l, Cont.unwrap n c ≠ .ok l := by
  intro l hu
  have := (C32_unwrap c h n l hu).2.2 _ _ _ _ hw hw'
  cases this

/-- a table in three parts, with parts of sub-tables, around another table -/
def threeParts : Str := t!"[a.b]\nx = 1\n[c]\n[a.d]\ny = [1, {p = 2}]\n[[e]]\n[a]\nz.u = 3\n[a.b.f]\nv = 4\n"

set_option maxRecDepth 10000 in
/-- it can be unwrapped, and all leaves are there -/
example : ((parse threeParts).toOption.bind fun c => (Cont.unwrap 30 c).toOption.map fun l =>
    [look [.key (t!"a"), .key (t!"b"), .key (t!"x")] (.dict l), look [.key (t!"a"), .key (t!"d"), .key (t!"y"), .idx 1, .key (t!"p")] (.dict l),
     look [.key (t!"a"), .key (t!"z"), .key (t!"u")] (.dict l), look [.key (t!"a"), .key (t!"b"), .key (t!"f"), .key (t!"v")] (.dict l)].map fun o =>
      match o with
      | some (.scalar (.int i)) => i
      | _ => 0) = some [1, 2, 3, 4] := by decide +kernel

set_option maxRecDepth 10000 in
/-- A document can be parsed although two parts of a table have the same key: `[a.b]`, `[c]`, then `[a]` with `b = 2`. Only reading it raises. -/
theorem C32_conflict_raises : ((parse (t!"[a.b]\nx = 1\n[c]\n[a]\nb = 2\n")).toOption.map fun c => match Cont.unwrap 30 c with
    | .ok _ => false
    | .error e => decide (e = .keyAlreadyPresent)) = some true := by decide +kernel

end Tomlkit
