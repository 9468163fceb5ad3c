import Verif.Proofs.SkelAppend
import Verif.Proofs.Copies
/-!
# The values of a document, line by line

`leaves` lists the values of the lines in the order of the text. Together with the skeleton they determine a container.
-/
namespace Tomlkit

mutual
/-- the values of the lines, in order -/
def Item.leaves : Item → List Item
  | .ws .. | .comment .. | .null .. => []
  | .table tb => tb.leaves
  | .aot ts _ _ _ => ts.leavesTables
  | .integer v t r => [.integer v t r]
  | .float v t r => [.float v t r]
  | .bool v t => [.bool v t]
  | .datetime v t r => [.datetime v t r]
  | .date v t r => [.date v t r]
  | .time v t r => [.time v t r]
  | .str a v o t => [.str a v o t]
  | .array g t m => [.array g t m]
  | .inline c t n => [.inline c t n]
termination_by structural i => i
@[inherit_doc Item.leaves]
def Tbl.leaves : Tbl → List Item
  | .mk c _ _ _ _ _ => c.leaves
termination_by structural t => t
@[inherit_doc Item.leaves]
def Cont.leaves : Cont → List Item
  | .mk b _ _ _ _ => b.leavesEntries
termination_by structural c => c
@[inherit_doc Item.leaves]
def _root_.List.leavesEntries : List Entry → List Item
  | [] => []
  | e :: r => e.leaves ++ r.leavesEntries
termination_by structural e => e
@[inherit_doc Item.leaves]
def Entry.leaves : Entry → List Item
  | .mk _ v => v.leaves
termination_by structural e => e
@[inherit_doc Item.leaves]
def _root_.List.leavesTables : List Tbl → List Item
  | [] => []
  | t :: r => t.leaves ++ r.leavesTables
termination_by structural t => t
end

theorem leavesEntries_eq (b : List Entry) : b.leavesEntries = b.flatMap fun e => e.v.leaves := by
  induction b with
  | nil => rfl
  | cons e r ih => rcases e with ⟨k, v⟩; rw [List.leavesEntries, ih]; rfl

theorem leavesTables_eq (b : List Tbl) : b.leavesTables = b.flatMap Tbl.leaves := by
  induction b with
  | nil => rfl
  | cons e r ih => rw [List.leavesTables, ih]; rfl

theorem Cont.leaves_eq (c : Cont) : c.leaves = c.body.flatMap fun e => e.v.leaves := by
  rcases c with ⟨b, m, d, p, tk⟩; exact leavesEntries_eq b

theorem Tbl.leaves_eq (t : Tbl) : t.leaves = t.cont.leaves := by rcases t with ⟨c, t, a, s, n, d⟩; rfl

theorem leaves_simple {v : Item} (h : v.isSimple = true) : v.leaves = [v] := by cases v <;> first | rfl | cases h

theorem leaves_setName (v : Item) (s : Str) : (v.setName s).leaves = v.leaves := by
  rcases v with _ | _ | _ | _ | _ | _ | _ | _ | _ | _ | _ | ⟨c, t, a, s, n, d⟩ | ⟨ts, t, nm, p⟩ | _ <;> rfl

theorem leaves_snoc {c c' : Cont} {e : Entry} (h : c'.body = c.body ++ [e]) : c'.leaves = c.leaves ++ e.v.leaves := by
  rw [Cont.leaves_eq, Cont.leaves_eq, h]; simp

theorem leaves_setLast {c : Cont} {i : Nat} {cur : Entry} {v : Item} {l : List Item} (hi : c.body[i]? = some cur)
    (hl : i + 1 = c.body.length) (hv : v.leaves = cur.v.leaves ++ l) : (c.setAt i cur v).leaves = c.leaves ++ l := by
  obtain ⟨pre, hpre⟩ : ∃ pre, c.body = pre ++ [cur] := by
    rcases c.body.eq_nil_or_concat with h | ⟨b, a, h⟩
    · rw [h] at hl; cases hl
    · rw [List.concat_eq_append] at h
      refine ⟨b, ?_⟩
      have hib : i = b.length := by rw [h] at hl; simpa using hl
      rw [h, hib] at hi
      simp at hi
      rw [h, hi]
  have hib : i = pre.length := by rw [hpre] at hl; simpa using hl
  have hb : (c.setAt i cur v).body = pre ++ [.mk cur.key v] := by
    show c.body.set i _ = _
    rw [hpre, hib]; simp
  rw [Cont.leaves_eq, Cont.leaves_eq, hb, hpre]
  simp [hv]

theorem append1_leaves : ∀ n,
    (∀ (al validate : Bool) (c : Cont) (key : Option SKey) (item : Item) (c' : Cont), c.Clean → c.Good PW → (Entry.mk key item).Clean → item.Good PW →
      Cont.append1 n al validate c key item = .ok (c', false) → c'.leaves = c.leaves ++ item.leaves) ∧
    (∀ (al : Bool) (t : Tbl) (key : Option SKey) (item : Item) (t' : Tbl), t.cont.Clean → t.Good PW → (Entry.mk key item).Clean → item.Good PW →
      Tbl.append1 n al t key item = .ok (t', false) → t'.leaves = t.leaves ++ item.leaves) := by
  intro n
  induction n with
  | zero =>
    constructor
    · intro al validate c key item c' _ _ _ _ h; rw [Cont.append1] at h; cases h
    · intro al t key item t' _ _ _ _ h; rw [Tbl.append1] at h; cases h
  | succ n ih =>
    obtain ⟨ihC, ihT⟩ := ih
    constructor
    · intro al validate c key item c' hc hg he hgi h
      have hpar := ((Cont.clean_iff c).1 hc).1
      have hprep : ∀ item', c.prepare key item = .ok item' → (Entry.mk key item').Clean ∧ item'.Good PW ∧ item'.leaves = item.leaves := by
        intro item' hp
        refine (fun (h : (Entry.mk key item').Clean ∧ item'.leaves = item.leaves) => ⟨h.1, prepare_good closed_PW hgi hp, h.2⟩) ?_
        have := prepare_parsed hpar hp
        split at this
        · rcases key with _ | k
          · cases this; exact ⟨he, rfl⟩
          · cases this
            exact ⟨setName_clean _ _ _ he, leaves_setName _ _⟩
        · cases this; exact ⟨he, rfl⟩
      generalize hmv : false = mv at h
      cases append1_cases h with
      | fresh item' _ hp hk ht =>
        obtain ⟨h1, h2, h3⟩ := hprep _ hp
        obtain ⟨hb, hp'⟩ := appendTail_parsed hpar ht
        rw [leaves_snoc hb, ← h3]; rfl
      | again item' _ k i cur ct tb hp hk hl hcv hii ht =>
        obtain ⟨h1, h2, h3⟩ := hprep _ hp
        obtain ⟨hb, hp'⟩ := appendTail_parsed hpar ht
        rw [leaves_snoc hb, ← h3]; rfl
      | aotAdd item' k i cur tb ts t nm p hp hk hal hl hcv hii ha => cases hmv
      | toAoT item' k i cur tb ct _ hp hk hal hl hcv hii ha hr2 => cases hmv
      | superApart item' k i cur tb ct _ idx hp hk hl hcv hii hs hs' hidx hr2 hv =>
        obtain ⟨h1, h2, h3⟩ := hprep _ hp
        have hidx : idx = c.body.length := by rw [hidx, hpar]; simp
        subst hidx
        rw [if_neg (Nat.lt_irrefl _)] at hr2
        obtain ⟨hb, hp'⟩ := rawAppend_keep hr2
        rw [leaves_snoc hb, ← h3]; rfl
      | superMerge item' k i cur tb ct ct' mv' hp hk hl hcv hii hs hs' hd hd' hf =>
        obtain ⟨h1, h2, h3⟩ := hprep _ hp
        subst hk hii
        have hmv := hmv.symm
        simp only [Bool.or_eq_false_iff] at hmv
        obtain ⟨⟨hm1, hm2⟩, rfl⟩ := hmv
        have hm1 := bne_eq_false' hm1
        have hm2 := bne_eq_false' hm2
        have hat := lastEntry_at hl
        have hcur := ((Cont.clean_iff c).1 hc).2 cur (List.mem_of_getElem? hat)
        have hgc := ((Cont.good_iff c).1 hg).2 cur (List.mem_of_getElem? hat)
        rcases cur with ⟨ck, cv⟩
        simp only [Entry.v_mk] at hcv hgc
        subst hcv
        have hct : ct.Clean := hcur.1
        have htb : tb.Clean := h1.1
        have hcc := ((Tbl.clean_iff ct).1 hct).1
        have htc := ((Cont.clean_iff _).1 ((Tbl.clean_iff tb).1 htb).1).2
        have hgtb := ((Cont.good_iff _).1 ((Tbl.good_iff tb).1 h2)).2
        rw [(Tbl.copy_self ct hct hgc).1] at hf
        have hloop : ∀ (l : List Entry) (t0 : Tbl) (b0 : Bool), foldE (fun (p : Tbl × Bool) (e : Entry) =>
            (Tbl.append1 n al p.1 e.key e.v).map fun q => (q.1, p.2 || q.2)) (t0, b0) l = .ok (ct', false) →
            (∀ e ∈ l, e.Clean) → (∀ e ∈ l, e.v.Good PW) → t0.cont.Clean → t0.Good PW →
            ct'.leaves = t0.leaves ++ (l.flatMap fun e => e.v.leaves) := by
          intro l
          induction l with
          | nil =>
            intro t0 b0 hf _ _ _ _
            simp only [foldE, Except.ok.injEq, Prod.mk.injEq] at hf
            obtain ⟨rfl, rfl⟩ := hf
            simp
          | cons e l ihl =>
            intro t0 b0 hf hl hlp hc0 hp0
            simp only [foldE] at hf
            rcases hr : Tbl.append1 n al t0 e.key e.v with er | ⟨t1, b1⟩ <;> rw [hr] at hf
            · cases hf
            · simp only [Except.map] at hf
              have hb1 : b1 = false := by
                have hgrow : ∀ (l : List Entry) (t0 : Tbl) (b0 : Bool), foldE (fun (p : Tbl × Bool) (e : Entry) =>
                    (Tbl.append1 n al p.1 e.key e.v).map fun q => (q.1, p.2 || q.2)) (t0, b0) l = .ok (ct', false) → b0 = false := by
                  intro l
                  induction l with
                  | nil =>
                    intro t0 b0 hf
                    simp only [foldE, Except.ok.injEq, Prod.mk.injEq] at hf
                    exact hf.2
                  | cons e l ihl =>
                    intro t0 b0 hf
                    simp only [foldE] at hf
                    rcases hr : Tbl.append1 n al t0 e.key e.v with er | ⟨t1, b1⟩ <;> rw [hr] at hf
                    · cases hf
                    · simp only [Except.map] at hf
                      have := ihl _ _ hf
                      simp only [Bool.or_eq_false_iff] at this
                      exact this.1
                have := hgrow _ _ _ hf
                simp only [Bool.or_eq_false_iff] at this
                exact this.2
              subst hb1
              have he1 := hl e (List.mem_cons_self ..)
              have hec : (Entry.mk e.key e.v).Clean := by rcases e with ⟨ek, ev⟩; exact he1
              have hge := hlp e (List.mem_cons_self ..)
              have happ := ((append1_text n).2 al t0 e.key e.v t1 hc0 hec hr).app
              have hlv := ihT al t0 e.key e.v t1 hc0 hp0 hec hge hr
              have hg1 : t1.Good PW := (append1_good closed_PW n).2 hp0 hge hr
              have := ihl t1 _ hf (fun z hz => hl z (List.mem_cons_of_mem _ hz)) (fun z hz => hlp z (List.mem_cons_of_mem _ hz)) happ.clean hg1
              rw [this, hlv]
              simp
        have := hloop _ _ _ hf htc hgtb hcc hgc
        refine leaves_setLast hat hm1 ?_
        show ct'.leaves = ct.leaves ++ _
        rw [this, ← h3]
        show _ = _ ++ tb.leaves
        rw [Tbl.leaves_eq tb, Cont.leaves_eq]
      | aotMerge item' k i cur ts t nm p ts' t' nm' p' hp hk hal hl hcv hii =>
        obtain ⟨h1, h2, h3⟩ := hprep _ hp
        subst hk hii
        have hmv := hmv.symm
        simp only [Bool.or_eq_false_iff] at hmv
        obtain ⟨⟨hm1, hm2⟩, hm3⟩ := hmv
        have hm1 := bne_eq_false' hm1
        have hat := lastEntry_at hl
        have hcur := ((Cont.clean_iff c).1 hc).2 cur (List.mem_of_getElem? hat)
        rcases cur with ⟨ck, cv⟩
        simp only [Entry.v_mk] at hcv
        subst hcv
        obtain ⟨rfl, rfl, hcts⟩ := hcur.1
        have hfold : ∀ (l acc : List Tbl), l.foldl (aotAppend { trail := [] } true) acc = acc ++ l := by
          intro l
          induction l with
          | nil => intro acc; simp
          | cons a r ih =>
            intro acc
            rw [List.foldl_cons, aotAppend_parsed _ (by decide), ih]; simp
        rw [hfold]
        refine leaves_setLast hat hm1 ?_
        rw [← h3]
        show (ts' ++ ts).leavesTables = ts'.leavesTables ++ ts.leavesTables
        simp [leavesTables_eq]
    · intro al t key item t' hc hg he hgi h
      have hgc := (Tbl.good_iff t).1 hg
      rw [Tbl.append1] at h
      rcases hr : Cont.append1 n al true t.cont key item with er | ⟨c, mv⟩ <;> rw [hr] at h
      · cases h
      dsimp only at h
      have hfin : mv = false → t' = t.setCont c → t'.leaves = t.leaves ++ item.leaves := by
        rintro rfl rfl
        have := ihC _ _ _ _ _ _ hc hgc he hgi hr
        rcases t with ⟨c, t, a, s, n, dd⟩
        exact this
      split at h
      · cases h
      · split at h
        · simp only [Except.ok.injEq, Prod.mk.injEq] at h
          exact hfin h.2 h.1.symm
        · split at h
          · cases h
          · split at h
            · cases h
            · split at h
              · simp only [Except.ok.injEq, Prod.mk.injEq] at h
                exact hfin h.2 h.1.symm
              · split at h
                · cases h
                · simp only [Except.ok.injEq, Prod.mk.injEq] at h
                  exact absurd h.2 (by simp)

end Tomlkit
