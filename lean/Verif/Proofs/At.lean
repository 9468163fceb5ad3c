import Verif.Proofs.OverTables
import Verif.Proofs.Copies
import Verif.Spec.TableEdit
/-!
# A table inside a document

What is appended to a container does not look into a table with another name.
-/
namespace Tomlkit
open _root_.Spec Tomlkit.Spec

theorem Cont.setE_body (c : Cont) (i : Nat) (e : Entry) : (c.setE i e).body = c.body.set i e := rfl
theorem Cont.setE_map (c : Cont) (i : Nat) (e : Entry) : (c.setE i e).map = c.map := rfl
theorem Cont.setE_dict (c : Cont) (i : Nat) (e : Entry) : (c.setE i e).dict = c.dict := rfl
theorem Cont.setE_parsed (c : Cont) (i : Nat) (e : Entry) : (c.setE i e).parsed = c.parsed := rfl
theorem Cont.setE_keys (c : Cont) (i : Nat) (e : Entry) : (c.setE i e).tableKeys = c.tableKeys := rfl

theorem nullAt_set {i : Nat} {e : Entry} : ∀ (is : List Nat) (b : List Entry), i ∉ is → nullAt is (b.set i e) = (nullAt is b).set i e := by
  intro is
  induction is with
  | nil => intro b _; rfl
  | cons j r ih =>
    intro b h
    have h1 : i ≠ j := fun hx => h (by simp [hx])
    show nullAt r ((b.set i e).set j Entry.nullEntry) = (nullAt r (b.set j Entry.nullEntry)).set i e
    rw [List.set_comm _ _ h1, ih _ fun hx => h (by simp [hx])]

theorem tablesAt_set {i : Nat} {e : Entry} (b : List Entry) : ∀ (is : List Nat), i ∉ is → tablesAt (b.set i e) is = tablesAt b is := by
  intro is
  induction is with
  | nil => intro _; rfl
  | cons j r ih =>
    intro h
    have h1 : i ≠ j := fun hx => h (by simp [hx])
    have ih := ih fun hx => h (by simp [hx])
    unfold tablesAt at ih ⊢
    rw [List.filterMap_cons, List.filterMap_cons, List.getElem?_set_ne h1, ih]

section
variable {c : Cont} {i : Nat} {e : Entry} {k : Str}

/-- the position is not one of the key -/
def Off (c : Cont) (k : Str) (i : Nat) : Prop := ∀ is, mapGet k c.map = some is → i ∉ is

theorem has_setE (h : Off c k i) (n : Nat) : Cont.has n (c.setE i e) k = Cont.has n c k := by
  rcases n with _ | n
  · rw [Cont.has, Cont.has]
  rw [Cont.has, Cont.has]
  rw [Cont.setE_map]
  rcases hm : mapGet k c.map with _ | is
  · rfl
  have hp : Cont.mkProxy n (c.setE i e) is = Cont.mkProxy n c is := by
    rcases n with _ | n
    · rw [Cont.mkProxy, Cont.mkProxy]
    rw [Cont.mkProxy, Cont.mkProxy]
    rw [Cont.setE_body, tablesAt_set _ _ (h _ hm)]
  rcases is with _ | ⟨j, _ | ⟨j2, r⟩⟩
  · exact congrArg (Except.map fun _ => true) hp
  · rfl
  · exact congrArg (Except.map fun _ => true) hp

theorem last_setE (h : Off c k i) : (c.setE i e).lastEntry k = c.lastEntry k := by
  unfold Cont.lastEntry
  rw [Cont.setE_map, Cont.setE_body]
  rcases hm : mapGet k c.map with _ | is
  · rfl
  rcases hl : is.getLast? with _ | j
  · simp [hl]
  · have : i ≠ j := fun hx => h _ hm (by rw [hx]; exact List.mem_of_getLast? hl)
    simp only [hl, List.getElem?_set_ne this]

theorem raw_setE {key : SKey} (h : Off c key.key i) (hi : i < c.body.length) (v : Item) :
    (c.setE i e).rawAppend (some key) v = (c.rawAppend (some key) v).map (·.setE i e) := by
  unfold Cont.rawAppend
  rw [Cont.setE_map, Cont.setE_body, Cont.setE_dict, Cont.setE_parsed, Cont.setE_keys]
  have hset : c.body.set i e ++ [Entry.mk (some key) v] = (c.body ++ [Entry.mk (some key) v]).set i e := (List.set_append_left _ _ hi).symm
  rw [hset, List.length_set]
  rcases hm : mapGet key.key c.map with _ | is
  · simp only [hm]; rfl
  simp only [hm]
  rcases hl : is.getLast? with _ | j
  · rfl
  · have hne : i ≠ j := fun hx => h _ hm (by rw [hx]; exact List.mem_of_getLast? hl)
    have he : ((some j : Option Nat) >>= fun j => (c.body.set i e)[j]?) = ((some j : Option Nat) >>= fun j => c.body[j]?) := by
      show (c.body.set i e)[j]? = c.body[j]?
      exact List.getElem?_set_ne hne
    rw [he]
    rcases ((some j : Option Nat) >>= fun j => c.body[j]?) with _ | x
    · rfl
    · simp only
      split <;> rfl

end

theorem set_setE {c : Cont} {i j : Nat} (h : i ≠ j) (e x : Entry) : (Cont.mk ((c.setE i e).body.set j x) (c.setE i e).map (c.setE i e).dict (c.setE i e).parsed (c.setE i e).tableKeys) =
    (Cont.mk (c.body.set j x) c.map c.dict c.parsed c.tableKeys).setE i e := by
  show Cont.mk ((c.body.set i e).set j x) _ _ _ _ = Cont.mk ((c.body.set j x).set i e) _ _ _ _
  rw [List.set_comm _ _ h]
  rfl

/-- what is appended does not see an entry with another name -/
theorem append1_setE {c : Cont} {i : Nat} {e : Entry} {key : SKey} (h : Off c key.key i) (hi : i < c.body.length) (hp : c.parsed = true) (n : Nat) (val : Bool) (v : Item) :
    Cont.append1 n false val (c.setE i e) (some key) v = (Cont.append1 n false val c (some key) v).map fun p => (p.1.setE i e, p.2) := by
  rcases n with _ | n
  · rw [Cont.append1, Cont.append1]; rfl
  have hpe : (c.setE i e).parsed = true := hp
  have tail : ∀ w, (c.setE i e).appendTail (some key) w = (c.appendTail (some key) w).map (·.setE i e) := by
    intro w
    unfold Cont.appendTail
    simp only [hpe, hp, Bool.not_true, Bool.and_false, Bool.false_and, Bool.false_eq_true, if_false]
    exact raw_setE h hi w
  have tail' : ∀ w, ((c.setE i e).appendTail (some key) w).map (fun x => (x, false)) = ((c.appendTail (some key) w).map fun x => (x, false)).map fun p => (p.1.setE i e, p.2) := by
    intro w
    rw [tail]
    rcases c.appendTail (some key) w with _ | _ <;> rfl
  have hoff : ∀ {j : Nat} {cur : Entry}, c.lastEntry key.key = some (j, cur) → i ≠ j := by
    intro j cur hl hx
    obtain ⟨_, is, his, hm⟩ := lastEntry_get hl
    have hm : j ∈ is := by
      unfold Cont.lastEntry at hl
      rw [his] at hl
      dsimp only at hl
      rcases hg : is.getLast? with _ | j' <;> rw [hg] at hl
      · cases hl
      · dsimp only at hl
        rcases hb : c.body[j']? with _ | x <;> rw [hb] at hl
        · cases hl
        · cases hl; exact List.mem_of_getLast? hg
    exact h _ his (hx ▸ hm)
  rw [Cont.append1, Cont.append1, prepare_same hpe hp]
  simp only [Bool.false_and, Bool.false_eq_true, if_false]
  rcases c.prepare (some key) v with x | w
  · rfl
  simp only
  rw [has_setE h]
  rcases Cont.has n c key.key with x | b
  · rfl
  rcases b with _ | _
  · exact tail' w
  simp only
  rw [last_setE h]
  rcases hl : c.lastEntry key.key with _ | ⟨j, cur⟩
  · rfl
  simp only
  have hij := hoff hl
  have hlen : (c.setE i e).body.length = c.body.length := List.length_set
  rw [hlen]
  rcases w with _ | _ | _ | _ | _ | _ | _ | _ | _ | _ | _ | tb | ⟨ts, tr, nm, p⟩ | _ <;> try rfl
  · simp only
    split
    · rfl
    split
    · rcases cur.v with _ | _ | _ | _ | _ | _ | _ | _ | _ | _ | _ | ct | ⟨ts', t', n', p'⟩ | _ <;> try rfl
      · unfold Cont.replaceByAoT
        rw [Cont.setE_map, Cont.setE_body, Cont.setE_dict, Cont.setE_parsed, Cont.setE_keys]
        rcases hm : mapGet key.key c.map with _ | is
        · simp only [hm]; rfl
        rcases is with _ | ⟨a, r⟩
        · simp only [hm]; rfl
        · simp only [hm]
          show Except.ok (Cont.mk ((nullAt r (c.body.set i e)).set a _) _ _ _ _, true) = .ok (Cont.mk (((nullAt r c.body).set a _).set i e) _ _ _ _, true)
          rw [nullAt_set _ _ fun hx => h _ hm (by simp [hx]), List.set_comm _ _ (fun hx => h _ hm (by simp [hx]) : i ≠ a)]
          rfl
      · simp only
        rw [set_setE hij]
        rfl
    · rcases cur.v with _ | _ | _ | _ | _ | _ | _ | _ | _ | _ | _ | ct | ⟨ts', t', n', p'⟩ | _ <;> try rfl
      simp only
      split
      · split
        · rw [Cont.setE_keys]
          generalize (if (key.dotted || isDottedKey cur.key) = true then some true else _) = z
          rcases z with _ | _ | _
          · rfl
          · simp only
            generalize foldE _ (ct.deepCopy, false) tb.cont.body = z
            rcases z with x | ⟨ct', mv⟩
            · rfl
            · exact congrArg (fun z => Except.ok (z, _)) (set_setE hij e (.mk cur.key (.table ct')))
          · simp only [hpe, hp, Bool.not_true, Bool.and_false, Bool.false_eq_true, if_false, Nat.lt_irrefl, decide_false]
            rw [raw_setE h hi]
            rcases hr : c.rawAppend (some key) (.table tb) with x | c'
            · rfl
            · simp only [Except.map]
              have hoff' : Off c' key.key i := by
                intro is his hin
                unfold Cont.rawAppend at hr
                dsimp only at hr
                rcases hm : mapGet key.key c.map with _ | js <;> rw [hm] at hr
                · cases hr
                  rw [Cont.map_mk, mapGet_mapSet, if_pos rfl] at his
                  cases his
                  rw [List.mem_singleton] at hin
                  omega
                · dsimp only at hr
                  split at hr
                  · split at hr
                    · cases hr
                      rw [Cont.map_mk, mapGet_mapSet, if_pos rfl] at his
                      cases his
                      rcases List.mem_append.1 hin with hin | hin
                      · exact h _ hm hin
                      · rw [List.mem_singleton] at hin
                        omega
                    · cases hr
                  · cases hr
              rcases val with _ | _
              · rfl
              · simp only [if_true]
                rw [has_setE hoff']
                rcases Cont.has n c' key.key with x | b
                · rfl
                · rfl
        · split
          · rfl
          · exact tail' _
      · split
        · rfl
        · exact tail' _
  · simp only
    rcases cur.v with _ | _ | _ | _ | _ | _ | _ | _ | _ | _ | _ | ct | ⟨ts', t', n', p'⟩ | _ <;> try rfl
    simp only
    rw [set_setE hij]
    rfl

end Tomlkit
