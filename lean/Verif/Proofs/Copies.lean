import Verif.Proofs.KeepDoc
import Verif.Proofs.Consist
import Verif.Spec.Copies
import Verif.Proofs.Wrap
/-!
# Copies of containers
-/
namespace Tomlkit
open Tomlkit.Spec

/-! ## Shallow copies -/

theorem Alike.refl (c : Cont) : Alike c c := ⟨rfl, rfl, rfl, rfl⟩

theorem alike_cases {c c' : Cont} (h : Alike c c') : ∃ b m d p tk tk', c = .mk b m d p tk ∧ c' = .mk b m d p tk' := by
  rcases c with ⟨b, m, d, p, tk⟩
  rcases c' with ⟨b', m', d', p', tk'⟩
  obtain ⟨h1, h2, h3, h4⟩ := h
  simp only [Cont.body_mk, Cont.map_mk, Cont.dict_mk, Cont.parsed_mk] at h1 h2 h3 h4
  subst h1; subst h2; subst h3; subst h4
  exact ⟨_, _, _, _, _, _, rfl, rfl⟩

theorem size_alike {c c' : Cont} (h : Alike c c') : c'.size = c.size := by
  obtain ⟨b, m, d, p, tk, tk', rfl, rfl⟩ := alike_cases h
  rfl

theorem fuelFor_alike {c c' : Cont} (h : Alike c c') (v : Item) : fuelFor c' v = fuelFor c v := by
  unfold fuelFor; rw [size_alike h]

theorem mkProxy_alike {c c' : Cont} (h : Alike c c') (n : Nat) (is : List Nat) : Cont.mkProxy n c' is = Cont.mkProxy n c is := by
  rcases n with _ | n
  · rw [Cont.mkProxy, Cont.mkProxy]
  · rw [Cont.mkProxy, Cont.mkProxy, h.body]

theorem has_alike {c c' : Cont} (h : Alike c c') (n : Nat) (k : Str) : Cont.has n c' k = Cont.has n c k := by
  rcases n with _ | n
  · rw [Cont.has, Cont.has]
  · rw [Cont.has, Cont.has, h.map]
    rcases mapGet k c.map with _ | is
    · rfl
    rcases is with _ | ⟨i, _ | ⟨j, r⟩⟩
    · show (Cont.mkProxy n c' []).map _ = (Cont.mkProxy n c []).map _
      rw [mkProxy_alike h]
    · rfl
    · show (Cont.mkProxy n c' (i :: j :: r)).map _ = (Cont.mkProxy n c (i :: j :: r)).map _
      rw [mkProxy_alike h]

theorem prepare_alike {c c' : Cont} (h : Alike c c') (key : Option SKey) (v : Item) : c'.prepare key v = c.prepare key v := by
  obtain ⟨b, m, d, p, tk, tk', rfl, rfl⟩ := alike_cases h
  rfl

theorem lastEntry_alike {c c' : Cont} (h : Alike c c') (k : Str) : c'.lastEntry k = c.lastEntry k := by
  obtain ⟨b, m, d, p, tk, tk', rfl, rfl⟩ := alike_cases h
  rfl

theorem alike_rawAppend {c c' : Cont} (h : Alike c c') (key : Option SKey) (v : Item) :
    AlikeResults (c.rawAppend key v) (c'.rawAppend key v) := by
  obtain ⟨b, m, d, p, tk, tk', rfl, rfl⟩ := alike_cases h
  unfold Cont.rawAppend
  rcases key with _ | k
  · exact ⟨rfl, rfl, rfl, rfl⟩
  · simp only [Cont.map_mk, Cont.body_mk, Cont.dict_mk, Cont.parsed_mk, Cont.tableKeys_mk]
    rcases mapGet k.key m with _ | is
    · exact ⟨rfl, rfl, rfl, rfl⟩
    · simp only
      rcases (is.getLast? >>= fun i => b[i]?) with _ | e
      · exact rfl
      · simp only
        by_cases ht : e.v.isTable = true
        · rw [if_pos ht, if_pos ht]; exact ⟨rfl, rfl, rfl, rfl⟩
        · rw [if_neg ht, if_neg ht]; exact rfl

theorem alike_insertAt {c c' : Cont} (h : Alike c c') (i : Nat) (k : SKey) (v : Item) :
    AlikeResults (c.insertAt i k v) (c'.insertAt i k v) := by
  obtain ⟨b, m, d, p, tk, tk', rfl, rfl⟩ := alike_cases h
  unfold Cont.insertAt
  by_cases hi : i ≥ (Cont.mk b m d p tk).body.length
  · rw [if_pos hi, if_pos (show i ≥ (Cont.mk b m d p tk').body.length from hi)]; exact rfl
  · rw [if_neg hi, if_neg (show ¬ i ≥ (Cont.mk b m d p tk').body.length from hi)]; exact ⟨rfl, rfl, rfl, rfl⟩

theorem alike_remove {c c' : Cont} (h : Alike c c') (k : Str) : AlikeResults (c.remove k) (c'.remove k) := by
  obtain ⟨b, m, d, p, tk, tk', rfl, rfl⟩ := alike_cases h
  unfold Cont.remove
  simp only [Cont.map_mk, Cont.body_mk, Cont.dict_mk, Cont.parsed_mk, Cont.tableKeys_mk]
  rcases mapGet k m with _ | is
  · exact rfl
  · exact ⟨rfl, rfl, rfl, rfl⟩

theorem alike_removeAt {c c' : Cont} (h : Alike c c') (i : Nat) : AlikeResults (c.removeAt i) (c'.removeAt i) := by
  obtain ⟨b, m, d, p, tk, tk', rfl, rfl⟩ := alike_cases h
  unfold Cont.removeAt
  simp only [Cont.map_mk, Cont.body_mk, Cont.dict_mk, Cont.parsed_mk, Cont.tableKeys_mk]
  rcases b[i]? with _ | e
  · exact rfl
  simp only
  rcases e.key with _ | k
  · exact rfl
  simp only
  rcases mapGet k.key m with _ | is
  · exact rfl
  simp only
  split <;> exact ⟨rfl, rfl, rfl, rfl⟩

theorem alike_replaceByAoT {c c' : Cont} (h : Alike c c') (k : SKey) (v : Item) :
    AlikeResults (c.replaceByAoT k v) (c'.replaceByAoT k v) := by
  obtain ⟨b, m, d, p, tk, tk', rfl, rfl⟩ := alike_cases h
  unfold Cont.replaceByAoT
  simp only [Cont.map_mk, Cont.body_mk, Cont.dict_mk, Cont.parsed_mk, Cont.tableKeys_mk]
  rcases mapGet k.key m with _ | is
  · exact rfl
  rcases is with _ | ⟨i, r⟩
  · exact rfl
  · exact ⟨rfl, rfl, rfl, rfl⟩

theorem alike_appendTail {c c' : Cont} (h : Alike c c') (key : Option SKey) (v : Item) :
    AlikeResults (c.appendTail key v) (c'.appendTail key v) := by
  unfold Cont.appendTail
  rcases key with _ | k
  · exact alike_rawAppend h _ _
  · simp only
    rw [h.body, h.parsed]
    have hl : c'.lastIndexBeforeTable = c.lastIndexBeforeTable := by unfold Cont.lastIndexBeforeTable; rw [h.body]
    split
    · rw [hl]
      split
      · exact alike_insertAt h _ _ _
      · refine alike_rawAppend ?_ _ _
        exact ⟨rfl, h.map, h.dict, rfl⟩
    · exact alike_rawAppend h _ _

/-- the same for results with a ghost -/
def AlikePairs : Except Err (Cont × Bool) → Except Err (Cont × Bool) → Prop
  | .ok p, .ok p' => Alike p.1 p'.1 ∧ p.2 = p'.2
  | .error e, .error e' => e = e'
  | _, _ => False

theorem alike_pairs {r r' : Except Err Cont} (h : AlikeResults r r') (b : Bool) :
    AlikePairs (r.map fun c => (c, b)) (r'.map fun c => (c, b)) := by
  rcases r with e | c <;> rcases r' with e' | c'
  · exact h
  · exact h.elim
  · exact h.elim
  · exact ⟨h, rfl⟩

theorem alike_fst {r r' : Except Err (Cont × Bool)} (h : AlikePairs r r') : AlikeResults (r.map Prod.fst) (r'.map Prod.fst) := by
  rcases r with e | c <;> rcases r' with e' | c'
  · exact h
  · exact h.elim
  · exact h.elim
  · exact h.1

theorem isSuper_invalidate (t : Tbl) : t.invalidate.isSuper = t.isSuper := by
  rcases t with ⟨⟨b, m, d, p, tk⟩, tr, a, s, n, dn⟩
  unfold Tbl.invalidate Tbl.isSuper
  simp only [Tbl.superFlag_mk, Tbl.cont_mk, Cont.dict_mk, Cont.map_mk, Cont.body_mk]
  rcases s with _ | s
  · simp only
    rcases d with _ | ⟨k, _ | _⟩
    · rfl
    · simp only
      rcases mapGet k m with _ | is
      · rfl
      rcases is with _ | ⟨i, _ | _⟩
      · rfl
      · simp only
        rw [invalidateBody_get]
        rcases b[i]? with _ | ⟨kk, v⟩
        · rfl
        · rcases kk with _ | kk
          · rfl
          · show (if mapGet kk.key m = some [0 + i] then v.invalidate else v).isTableLike = v.isTableLike
            split
            · rcases v with _ | _ | _ | _ | _ | _ | _ | _ | _ | _ | _ | tb | ⟨ts, t, nm, p⟩ | _ <;> rfl
            · rfl
      · rfl
    · rfl
  · rfl

theorem isSuper_setTrivia (t : Tbl) (tr : Trivia) : (t.setTrivia tr).isSuper = t.isSuper := by
  rcases t with ⟨⟨b, m, d, p, tk⟩, tr, a, s, n, dn⟩; rfl

theorem prepare_super {c : Cont} {key : Option SKey} {v w : Item} (h : c.prepare key v = .ok w) (hs : ¬ IsSuperTable v) :
    ¬ IsSuperTable w := by
  unfold Cont.prepare at h
  have hname : ∀ (s : Str), ¬ IsSuperTable (v.setName s) := by
    intro s
    rcases v with _ | _ | _ | _ | _ | _ | _ | _ | _ | _ | _ | ⟨c, t, a, su, n, d⟩ | ⟨ts, t, nm, p⟩ | _ <;> exact hs
  have hx : ∀ x, (if v.isTableLike && v.name?.isNone then key.map fun k => v.setName k.key else some v) = some x → ¬ IsSuperTable x := by
    intro x hx
    split at hx
    · rcases key with _ | k
      · cases hx
      · cases hx; exact hname _
    · cases hx; exact hs
  rcases hm : (if v.isTableLike && v.name?.isNone then key.map fun k => v.setName k.key else some v) with _ | x <;> rw [hm] at h
  · cases h
  have h0 := hx x hm
  rcases x with _ | _ | _ | _ | _ | _ | _ | _ | _ | _ | _ | tb | ⟨ts, t, nm, p⟩ | _
  case table =>
    have h0 : ¬ tb.isSuper = true := h0
    have h1 : ¬ (if c.parsed = true then tb else tb.invalidate).isSuper = true := by
      split
      · exact h0
      · rw [isSuper_invalidate]; exact h0
    simp only at h
    revert h h1
    generalize (if c.parsed = true then tb else tb.invalidate) = tb'
    intro h1 h
    by_cases hc : (!c.body.isEmpty && !(c.parsed || !tb'.trivia.indent.isEmpty || c.prevWs) && !isDottedKey key) = true
    · rw [if_pos hc] at h
      cases h
      show ¬ (Tbl.setTrivia _ _).isSuper = true
      rw [isSuper_setTrivia]; exact h1
    · rw [if_neg hc] at h
      cases h
      exact h1
  case aot =>
    simp only at h
    split at h
    · split at h
      · cases h; exact id
      · split at h <;> cases h <;> exact id
    · cases h; exact id
  all_goals (cases h; exact h0)

theorem alike_append1 {c c' : Cont} (h : Alike c c') (n : Nat) (al validate : Bool) (key : Option SKey) (v : Item)
    (hs : isDottedKey key = true ∨ ¬ IsSuperTable v) :
    AlikePairs (Cont.append1 n al validate c key v) (Cont.append1 n al validate c' key v) := by
  rcases n with _ | n
  · rw [Cont.append1, Cont.append1]; exact rfl
  rw [Cont.append1, Cont.append1, prepare_alike h, h.parsed]
  by_cases hal : (al && !c.parsed) = true
  · rw [if_pos hal, if_pos hal]; exact rfl
  rw [if_neg hal, if_neg hal]
  rcases hp : c.prepare key v with e | w
  · exact rfl
  simp only
  have hs : isDottedKey key = true ∨ ¬ IsSuperTable w := hs.imp id (prepare_super hp)
  rcases key with _ | k
  · exact alike_pairs (alike_appendTail h _ _) _
  simp only
  rw [has_alike h, lastEntry_alike h]
  rcases Cont.has n c k.key with e | b
  · exact rfl
  rcases b with _ | _
  · exact alike_pairs (alike_appendTail h _ _) _
  simp only
  rcases c.lastEntry k.key with _ | ⟨i, cur⟩
  · exact rfl
  simp only
  have hset : ∀ v, Alike (.mk (c.body.set i (.mk cur.key v)) c.map c.dict c.parsed c.tableKeys)
      (.mk (c'.body.set i (.mk cur.key v)) c'.map c'.dict c.parsed c'.tableKeys) := fun v =>
    ⟨by simp only [Cont.body_mk]; rw [h.body], h.map, h.dict, rfl⟩
  rcases w with _ | _ | _ | _ | _ | _ | _ | _ | _ | _ | _ | tb | ⟨ts, t, nm, p⟩ | _
  case table =>
    simp only
    by_cases h1 : (!cur.v.isTableLike) = true
    · rw [if_pos h1, if_pos h1]; exact rfl
    rw [if_neg h1, if_neg h1]
    by_cases h2 : tb.isAot = true
    · rw [if_pos h2, if_pos h2]
      by_cases h3 : al = true
      · rw [if_pos h3, if_pos h3]; exact rfl
      rw [if_neg h3, if_neg h3]
      rcases cur.v with _ | _ | _ | _ | _ | _ | _ | _ | _ | _ | _ | ct | ⟨ts, t, nm, p⟩ | _
      case table => exact alike_pairs (alike_replaceByAoT h _ _) _
      case aot => exact ⟨hset _, rfl⟩
      all_goals exact rfl
    rw [if_neg h2, if_neg h2]
    rcases hcv : cur.v with _ | _ | _ | _ | _ | _ | _ | _ | _ | _ | _ | ct | ⟨ts, t, nm, p⟩ | _
    case table =>
      simp only
      by_cases h4 : ct.isSuper = true
      · rw [if_pos h4, if_pos h4]
        by_cases h5 : tb.isSuper = true
        · rw [if_pos h5, if_pos h5]
          have hd : k.dotted = true := by
            rcases hs with hs | hs
            · exact hs
            · exact absurd h5 hs
          rw [hd]
          simp only [Bool.true_or, if_true, h.body, Bool.true_and]
          have hl : c'.lastIndexBeforeTable = c.lastIndexBeforeTable := by unfold Cont.lastIndexBeforeTable; rw [h.body]
          rw [hl]
          generalize (if (!c.parsed) = true then c.lastIndexBeforeTable else c.body.length) = idx
          have hr : AlikeResults (if idx < c.body.length then c.insertAt idx k (.table tb) else c.rawAppend (some k) (.table tb))
              (if idx < c.body.length then c'.insertAt idx k (.table tb) else c'.rawAppend (some k) (.table tb)) := by
            split
            · exact alike_insertAt h _ _ _
            · exact alike_rawAppend h _ _
          revert hr
          generalize (if idx < c.body.length then c.insertAt idx k (.table tb) else c.rawAppend (some k) (.table tb)) = r
          generalize (if idx < c.body.length then c'.insertAt idx k (.table tb) else c'.rawAppend (some k) (.table tb)) = r'
          intro hr
          rcases r with e | c1 <;> rcases r' with e' | c1'
          · exact hr
          · exact hr.elim
          · exact hr.elim
          · simp only
            rw [has_alike hr]
            rcases (if validate = true then Cont.has n c1 k.key else .ok true) with e | b
            · exact rfl
            · exact ⟨hr, rfl⟩
        · rw [if_neg h5, if_neg h5]
          by_cases h6 : isDottedKey cur.key = true
          · rw [if_pos h6, if_pos h6]; exact rfl
          · rw [if_neg h6, if_neg h6]
            exact alike_pairs (alike_appendTail h _ _) _
      · rw [if_neg h4, if_neg h4]
        by_cases h5 : (!tb.isSuper) = true
        · rw [if_pos h5, if_pos h5]; exact rfl
        · rw [if_neg h5, if_neg h5]
          exact alike_pairs (alike_appendTail h _ _) _
    all_goals exact rfl
  case aot =>
    simp only
    rcases cur.v with _ | _ | _ | _ | _ | _ | _ | _ | _ | _ | _ | ct | ⟨ts', t', nm', p'⟩ | _
    case aot =>
      simp only
      by_cases h3 : al = true
      · rw [if_pos h3, if_pos h3]; exact rfl
      rw [if_neg h3, if_neg h3, h.body]
      exact ⟨by have := hset (.aot (ts.foldl (aotAppend t' p') ts') t' nm' p'); rw [h.body] at this; exact this, rfl⟩
    all_goals exact rfl
  all_goals exact rfl

theorem alike_append {c c' : Cont} (h : Alike c c') (validate : Bool) (key : Option Key) (v : Item) (hs : ¬ IsSuperTable v) :
    AlikePairs (Cont.append validate c key v) (Cont.append validate c' key v) := by
  unfold Cont.append
  rcases key with _ | key
  · simp only [fuelFor_alike h]
    exact alike_append1 h _ _ _ _ _ (Or.inr hs)
  simp only
  rcases key.parts with _ | ⟨k, _ | ⟨k2, r⟩⟩
  · exact rfl
  · simp only [fuelFor_alike h]
    exact alike_append1 h _ _ _ _ _ (Or.inr hs)
  · simp only
    by_cases hv : v.isTableLike = true
    · rw [if_pos hv, if_pos hv]; exact rfl
    rw [if_neg hv, if_neg hv]
    rcases dottedChain none (k2 :: r) key.sep v with _ | t
    · exact rfl
    · simp only [fuelFor_alike h]
      exact alike_append1 h _ _ _ _ _ (Or.inl rfl)

theorem alike_finishReplace {c c' : Cont} (h : Alike c c') (old : Item) (nk : SKey) (i : Nat) :
    Alike (c.finishReplace old nk i) (c'.finishReplace old nk i) := by
  obtain ⟨b, m, d, p, tk, tk', rfl, rfl⟩ := alike_cases h
  unfold Cont.finishReplace
  simp only [Cont.map_mk, Cont.body_mk, Cont.dict_mk, Cont.parsed_mk, Cont.tableKeys_mk]
  have hpi : ∀ b, (Cont.mk b m d p tk').prevIndex = (Cont.mk b m d p tk).prevIndex := fun _ => rfl
  simp only [hpi]
  split <;> exact ⟨rfl, rfl, rfl, rfl⟩

theorem alike_replaceAt {c c' : Cont} (h : Alike c c') (is : List Nat) (k : Str) (v : Item) (hs : ¬ IsSuperTable v) :
    AlikeResults (c.replaceAt is k v) (c'.replaceAt is k v) := by
  unfold Cont.replaceAt
  rcases is with _ | ⟨idx, others⟩
  · exact rfl
  simp only
  rw [h.body, h.map, h.dict, h.parsed]
  rcases (nullAt others c.body)[idx]? with _ | ⟨ok, w⟩
  · exact rfl
  rcases ok with _ | ok
  · exact rfl
  simp only
  split
  · have hrm := alike_remove (c := .mk (nullAt others c.body) (mapSet (if (v.isTableLike != w.isTableLike || k != ok.key) = true then mkKey k else ok).key [idx] (mapDel ok.key c.map))
        (if ((if (v.isTableLike != w.isTableLike || k != ok.key) = true then mkKey k else ok).key != ok.key) = true then dictDel ok.key c.dict else c.dict) c.parsed c.tableKeys)
        (c' := .mk (nullAt others c.body) (mapSet (if (v.isTableLike != w.isTableLike || k != ok.key) = true then mkKey k else ok).key [idx] (mapDel ok.key c.map))
        (if ((if (v.isTableLike != w.isTableLike || k != ok.key) = true then mkKey k else ok).key != ok.key) = true then dictDel ok.key c.dict else c.dict) c.parsed c'.tableKeys)
        ⟨rfl, rfl, rfl, rfl⟩ ok.key
    revert hrm
    generalize (if (v.isTableLike != w.isTableLike || k != ok.key) = true then mkKey k else ok) = nk
    generalize (Cont.mk _ _ _ _ c.tableKeys).remove ok.key = r
    generalize (Cont.mk _ _ _ _ c'.tableKeys).remove ok.key = r'
    intro hrm
    rcases r with e | c2 <;> rcases r' with e' | c2'
    · exact hrm
    · exact hrm.elim
    · exact hrm.elim
    simp only
    rw [hrm.body]
    rcases firstTableFrom c2.body idx with _ | i
    · simp only
      have ha := alike_append hrm true (some (.single nk)) v hs
      revert ha
      generalize Cont.append true c2 (some (.single nk)) v = r
      generalize Cont.append true c2' (some (.single nk)) v = r'
      intro ha
      rcases r with e | ⟨c3, mv⟩ <;> rcases r' with e' | ⟨c3', mv'⟩
      · exact ha
      · exact ha.elim
      · exact ha.elim
      simp only
      have ha : Alike c3 c3' := ha.1
      rw [ha.map]
      rcases mapGet nk.key c3.map with _ | is
      · exact rfl
      rcases is with _ | ⟨i, _ | _⟩
      · exact rfl
      · exact alike_finishReplace ha _ _ _
      · exact rfl
    · simp only
      have hi := alike_insertAt hrm i nk v
      revert hi
      generalize c2.insertAt i nk v = r
      generalize c2'.insertAt i nk v = r'
      intro hi
      rcases r with e | c3 <;> rcases r' with e' | c3'
      · exact hi
      · exact hi.elim
      · exact hi.elim
      · exact alike_finishReplace hi _ _ _
  · refine alike_finishReplace ?_ _ _ _
    exact ⟨rfl, rfl, rfl, rfl⟩

theorem alike_setItem {c c' : Cont} (h : Alike c c') (k : Str) (v : Item) (hs : ¬ IsSuperTable v) :
    AlikeResults (c.setItem k v) (c'.setItem k v) := by
  unfold Cont.setItem
  rw [fuelFor_alike h, has_alike h, h.map]
  rcases Cont.has (fuelFor c v) c k with e | b
  · exact rfl
  rcases b with _ | _
  · exact alike_fst (alike_append h _ _ _ hs)
  simp only
  rcases mapGet k c.map with _ | is
  · exact rfl
  · exact alike_replaceAt h _ _ _ hs

theorem alike_run {c c' : Cont} (h : Alike c c') (op : Op) (hs : NoSuperAtTop ([], op)) :
    AlikeResults (op.run .doc c) (op.run .doc c') := by
  rcases op with ⟨k, v⟩ | ⟨k, v⟩ | ⟨key, v⟩ | v | k
  · exact alike_setItem h k v hs
  · exact alike_fst (alike_append h _ _ _ hs)
  · exact alike_fst (alike_append h _ _ _ hs)
  · unfold Op.run
    simp only
    by_cases hv : (v.isWhitespace || v.isComment) = true
    · rw [if_pos hv, if_pos hv]
      refine alike_fst (alike_append h _ _ _ ?_)
      intro hsup
      rcases v with _ | _ | _ | _ | _ | _ | _ | _ | _ | _ | _ | ct | ⟨ts', t', nm', p'⟩ | _ <;>
        first | exact hsup.elim | cases hv
    · rw [if_neg hv, if_neg hv]; exact rfl
  · exact alike_remove h k

theorem alike_write {m m' : List (Str × List Nat)} {d d' : List Str} {p p' : Bool} {tk tk' : List Str} (hm : m' = m)
    (hd : d' = d) (hp : p' = p) (r : Except Err Cont) (f : Cont → List Entry) :
    AlikeResults (r.map fun c1 => .mk (f c1) m d p tk) (r.map fun c1 => .mk (f c1) m' d' p' tk') := by
  rcases r with e | c1
  · exact rfl
  · exact ⟨rfl, hm, hd, hp⟩

theorem alike_runProxy {c c' : Cont} (h : Alike c c') (op : Op) (is : List Nat) :
    AlikeResults (op.runProxy c is) (op.runProxy c' is) := by
  rcases op with ⟨k, v⟩ | ⟨k, v⟩ | ⟨key, v⟩ | v | k
  · show AlikeResults (proxySet c is k v) (proxySet c' is k v)
    unfold proxySet
    rw [fuelFor_alike h, mkProxy_alike h, h.body]
    rcases Cont.mkProxy _ c is with e | p
    · exact rfl
    simp only
    split
    · exact rfl
    have hpart : ∀ i, AlikeResults (match tableAt c.body i with
        | none => .error .indexError
        | some (key, tb) => (tb.cont.setItemIndented tb.trivia.indent k v).map fun c1 =>
            .mk (c.body.set i (.mk key (.table (tb.setCont c1)))) c.map c.dict c.parsed c.tableKeys)
        (match tableAt c.body i with
        | none => .error .indexError
        | some (key, tb) => (tb.cont.setItemIndented tb.trivia.indent k v).map fun c1 =>
            .mk (c.body.set i (.mk key (.table (tb.setCont c1)))) c'.map c'.dict c'.parsed c'.tableKeys) := by
      intro i
      rcases tableAt c.body i with _ | ⟨key, tb⟩
      · exact rfl
      · exact alike_write h.map h.dict h.parsed _ _
    rcases partWith k c.body is with _ | i
    · rcases is with _ | ⟨i, r⟩
      · exact rfl
      · exact hpart i
    · exact hpart i
  · exact rfl
  · exact rfl
  · exact rfl
  · show AlikeResults (proxyRemove c is k) (proxyRemove c' is k)
    unfold proxyRemove
    rw [fuelFor_alike h, mkProxy_alike h, h.body]
    rcases Cont.mkProxy _ c is with e | p
    · exact rfl
    simp only
    rcases partWith k c.body is with _ | i
    · exact rfl
    simp only
    rcases tableAt c.body i with _ | ⟨key, tb⟩
    · exact rfl
    simp only
    rcases tb.cont.remove k with e | c1
    · exact rfl
    simp only
    have ha : Alike (.mk (c.body.set i (.mk key (.table (tb.setCont c1)))) c.map c.dict c.parsed c.tableKeys)
        (.mk (c.body.set i (.mk key (.table (tb.setCont c1)))) c'.map c'.dict c'.parsed c'.tableKeys) :=
      ⟨rfl, h.map, h.dict, h.parsed⟩
    split
    · exact alike_removeAt ha _
    · exact ha

theorem alike_atPath {c c' : Cont} (h : Alike c c') (path : List Step) (op : Op) (hs : NoSuperAtTop (path, op)) :
    AlikeResults (Cont.atPath op path .doc c) (Cont.atPath op path .doc c') := by
  rcases path with _ | ⟨k | ⟨k, j⟩, r⟩
  · rw [Cont.atPath, Cont.atPath]; exact alike_run h op hs
  · rw [Cont.atPath, Cont.atPath, h.map, h.body]
    rcases mapGet k c.map with _ | is
    · exact rfl
    rcases is with _ | ⟨i, _ | ⟨i2, is⟩⟩
    · rcases r with _ | _
      · exact alike_runProxy h op _
      · exact rfl
    · simp only
      rcases c.body[i]? with _ | ⟨key, v⟩
      · exact rfl
      rcases v with _ | _ | _ | _ | _ | _ | _ | _ | _ | _ | ⟨ci, t, new⟩ | tb | ⟨ts', t', nm', p'⟩ | _
      case inline => exact alike_write rfl h.dict h.parsed _ _
      case table => exact alike_write rfl h.dict h.parsed _ _
      all_goals exact rfl
    · rcases r with _ | _
      · exact alike_runProxy h op _
      · exact rfl
  · rw [Cont.atPath, Cont.atPath, h.map, h.body]
    rcases mapGet k c.map with _ | is
    · exact rfl
    rcases is with _ | ⟨i, _ | ⟨i2, is⟩⟩
    · exact rfl
    · simp only
      rcases c.body[i]? with _ | ⟨key, v⟩
      · exact rfl
      rcases v with _ | _ | _ | _ | _ | _ | _ | _ | _ | _ | _ | tb | ⟨ts, t, nm, p⟩ | _
      case aot =>
        simp only
        rcases ts[j]? with _ | tb
        · exact rfl
        · exact alike_write rfl h.dict h.parsed _ _
      all_goals exact rfl
    · exact rfl

theorem alike_history : ∀ (ops : List (List Step × Op)) {c c' : Cont}, Alike c c' → (∀ o ∈ ops, NoSuperAtTop o) →
    AlikeResults (c.history ops) (c'.history ops)
  | [], _, _, h, _ => h
  | (path, op) :: r, c, c', h, hs => by
    unfold Cont.history
    rw [foldE, foldE]
    have h1 := alike_atPath h path op (hs _ (List.mem_cons_self ..))
    revert h1
    generalize Cont.atPath op path .doc c = r1
    generalize Cont.atPath op path .doc c' = r1'
    intro h1
    rcases r1 with e | c1 <;> rcases r1' with e' | c1'
    · exact h1
    · exact h1.elim
    · exact h1.elim
    · exact alike_history r h1 (fun o ho => hs o (List.mem_cons_of_mem _ ho))

/-! ## Deep copies of parsed documents -/

theorem order_of_good {b : List Entry} {m : List (Str × List Nat)} {d : List Str} {p : Bool} {tk : List Str}
    (h : (Cont.mk b m d p tk).Good PW) : dictOfBody b = d := (((Cont.good_iff _).1 h).1.order).symm

mutual
theorem Item.copy_self : (v : Item) → v.Clean → v.Good PW → v.deepCopy = v ∧ v.stopParsing.deepCopy = v.stopParsing
  | .array gs t ml, h, hg => by
    have h1 := groups_copy_self gs h.2 hg
    have : (Item.array gs t ml).deepCopy = .array gs t ml := by
      show Item.array (groupValues (groupItems gs.deepCopyGroups)) t ml = _
      rw [h1, h.1.2]
    exact ⟨this, this⟩
  | .inline c t new, h, hg => by
    have h1 := (Cont.copy_self c h.2 hg).1
    have : (Item.inline c t new).deepCopy = .inline c t new := by
      show Item.inline c.deepCopy t false = _
      rw [h1, h.1]
    exact ⟨this, this⟩
  | .table tb, h, hg => by
    obtain ⟨h1, h2⟩ := Tbl.copy_self tb h hg
    exact ⟨congrArg Item.table h1, congrArg Item.table h2⟩
  | .aot ts t n p, h, hg => by
    obtain ⟨rfl, rfl, ht⟩ := h
    obtain ⟨h1, h2⟩ := tables_copy_self ts ht hg
    refine ⟨?_, ?_⟩
    · show mkAoT ts.deepCopyTables n true = _
      rw [h1, mkAoT_parsed]
    · show mkAoT ts.stopParsingTables.deepCopyTables n true = .aot ts.stopParsingTables _ _ _
      rw [h2, mkAoT_parsed]
  | .null t, h, _ => by
    have h : t = { trail := [] } := h
    subst h; exact ⟨rfl, rfl⟩
  | .ws _ _, _, _ => ⟨rfl, rfl⟩
  | .comment _, _, _ => ⟨rfl, rfl⟩
  | .integer _ _ _, _, _ => ⟨rfl, rfl⟩
  | .float _ _ _, _, _ => ⟨rfl, rfl⟩
  | .bool _ _, _, _ => ⟨rfl, rfl⟩
  | .datetime _ _ _, _, _ => ⟨rfl, rfl⟩
  | .date _ _ _, _, _ => ⟨rfl, rfl⟩
  | .time _ _ _, _, _ => ⟨rfl, rfl⟩
  | .str _ _ _ _, _, _ => ⟨rfl, rfl⟩
theorem groups_copy_self : (gs : List AGroup) → cleanGroups gs → goodGroups PW gs → gs.deepCopyGroups = gs
  | [], _, _ => rfl
  | g :: r, h, hg => by
    show g.deepCopy :: r.deepCopyGroups = _
    rw [AGroup.copy_self g h.1 hg.1, groups_copy_self r h.2 hg.2]
theorem AGroup.copy_self : (g : AGroup) → g.Clean → g.Good PW → g.deepCopy = g
  | .noval _ _ _, _, _ => rfl
  | .val i v c m, h, hg => by
    show AGroup.val i v.deepCopy c m = _
    rw [(Item.copy_self v h.1 hg).1]
theorem Tbl.copy_self : (t : Tbl) → t.Clean → t.Good PW → t.deepCopy = t ∧ t.stopParsing.deepCopy = t.stopParsing
  | .mk c t a s n d, h, hg => by
    obtain ⟨h1, h2⟩ := Cont.copy_self c h.1 hg
    refine ⟨?_, ?_⟩
    · show Tbl.mk c.deepCopy t a s n d = _
      rw [h1]
    · show Tbl.mk c.stopParsing.deepCopy t a s n d = .mk c.stopParsing t a s n d
      rw [h2]
theorem Cont.copy_self : (c : Cont) → c.Clean → c.Good PW → c.deepCopy = c ∧ c.stopParsing.deepCopy = c.stopParsing
  | .mk b m d p tk, h, hg => by
    obtain ⟨h1, h2⟩ := entries_copy_self b h.2 hg.2
    refine ⟨?_, ?_⟩
    · show Cont.mk b.deepCopyEntries m (dictOfBody b) p tk = _
      rw [h1, order_of_good hg]
    · show Cont.mk b.stopParsingEntries.deepCopyEntries m (dictOfBody b.stopParsingEntries) false tk =
        .mk b.stopParsingEntries m d false tk
      rw [h2, dictOfBody_shape (stopParsingEntries_shape b), order_of_good hg]
theorem entries_copy_self : (b : List Entry) → cleanEntries b → goodEntries PW b →
    b.deepCopyEntries = b ∧ b.stopParsingEntries.deepCopyEntries = b.stopParsingEntries
  | [], _, _ => ⟨rfl, rfl⟩
  | e :: r, h, hg => by
    obtain ⟨h1, h2⟩ := entries_copy_self r h.2 hg.2
    obtain ⟨g1, g2⟩ := Entry.copy_self e h.1 hg.1
    refine ⟨?_, ?_⟩
    · show e.deepCopy :: r.deepCopyEntries = _
      rw [h1, g1]
    · show e.stopParsing.deepCopy :: r.stopParsingEntries.deepCopyEntries = e.stopParsing :: r.stopParsingEntries
      rw [h2, g2]
theorem Entry.copy_self : (e : Entry) → e.Clean → e.Good PW → e.deepCopy = e ∧ e.stopParsing.deepCopy = e.stopParsing
  | .mk k v, h, hg => by
    obtain ⟨h1, h2⟩ := Item.copy_self v h.1 hg
    refine ⟨?_, ?_⟩
    · show Entry.mk k v.deepCopy = _
      rw [h1]
    · show Entry.mk k v.stopParsing.deepCopy = .mk k v.stopParsing
      rw [h2]
theorem tables_copy_self : (ts : List Tbl) → cleanTables ts → goodTables PW ts →
    ts.deepCopyTables = ts ∧ ts.stopParsingTables.deepCopyTables = ts.stopParsingTables
  | [], _, _ => ⟨rfl, rfl⟩
  | t :: r, h, hg => by
    obtain ⟨h1, h2⟩ := tables_copy_self r h.2 hg.2
    obtain ⟨g1, g2⟩ := Tbl.copy_self t h.1 hg.1
    refine ⟨?_, ?_⟩
    · show t.deepCopy :: r.deepCopyTables = _
      rw [h1, g1]
    · show t.stopParsing.deepCopy :: r.stopParsingTables.deepCopyTables = t.stopParsing :: r.stopParsingTables
      rw [h2, g2]
end

/-- the document before the parser lets it go -/
def preDoc (s : Str) : P Cont := do
  let c ← topItems (docFuel s) (.empty true)
  topTables (docFuel s) c

theorem parseDoc_pre (s : Str) (st : St) : parseDoc s st = match preDoc s st with
    | .ok c st => .ok c.stopParsing st
    | .err e st => .err e st := by
  unfold parseDoc preDoc
  simp only [P.bind_def]
  rcases topItems (docFuel s) (.empty true) st with ⟨c, s1⟩ | ⟨e, s1⟩
  · rcases h : topTables (docFuel s) c s1 with ⟨c, s2⟩ | ⟨e, s2⟩ <;> simp only [h] <;> rfl
  · rfl

theorem parsed_clean {s : Str} {c : Cont} (h : parseLog s = .ok (c, [])) :
    ∃ c0 : Cont, c = c0.stopParsing ∧ c0.Clean ∧ c0.Good PW := by
  have h1 : (preDoc s).wp (fun c st => st.loss = [] → c.Clean) (fun _ _ => True) (.init s) := by
    unfold preDoc
    refine wp_bind ?_
    have h := Tr.refl (St.init s)
    refine wp_mono (Q := _) (E := ErrK (St.init s)) (h.call (topItems_keep (docFuel s) (.init s) (.empty true)) fun c1 s1 h1 => h1) ?_
      fun _ _ _ => trivial
    intro c1 s1 h1
    refine wp_mono (Q := _) (E := ErrK (St.init s)) (h1.call (topTables_keep (docFuel s) s1 c1) fun c2 s2 h2 => h2) ?_
      fun _ _ _ => trivial
    intro c2 s2 h2 hl
    obtain ⟨⟨_, hf⟩, hg⟩ := h2.fact hl
    obtain ⟨q1, q2, q3, u, hu, hut⟩ := hf rfl ⟨rfl, trivial⟩
    exact (hg q1 q2 q3).1
  have h2 : (preDoc s).wp (fun c _ => c.Good PW) (ErrT (.init s)) (.init s) := by
    have h := Adv.refl (St.init s)
    unfold preDoc
    refine wp_bind (h.callT (topItems_does _ _ _ ?_ (Cont.good_empty closed_PW)) fun c s1 h hc => ?_)
    · simp [St.init, docFuel]; omega
    · refine h.callT (topTables_does _ _ _ ?_ hc) fun c s1 h hc => hc
      have := h.len
      simp [St.init, docFuel] at *; omega
  unfold parseLog at h
  rw [parseDoc_pre] at h
  unfold P.wp at h1 h2
  rcases hr : preDoc s (.init s) with ⟨a, st⟩ | ⟨e, st⟩ <;> rw [hr] at h h1 h2
  · simp only [Except.ok.injEq, Prod.mk.injEq] at h
    exact ⟨a, h.1.symm, h1 h.2, h2⟩
  · cases h

/-- a document that is read without loss is its own deep copy -/
theorem parsed_deepCopy {s : Str} {c : Cont} (h : parseLog s = .ok (c, [])) : c.deepCopy = c := by
  obtain ⟨c0, rfl, h1, h2⟩ := parsed_clean h
  exact (Cont.copy_self c0 h1 h2).2

end Tomlkit
