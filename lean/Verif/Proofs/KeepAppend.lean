import Verif.Proofs.KeepPairs
/-!
# Appending to a container being parsed adds the text of the new entry at the end
-/
namespace Tomlkit

/-! ### names do not matter -/

theorem setName_entry (x : Ctx) (key : Option SKey) (item : Item) (nm : Str) :
    x.entry (.mk key (item.setName nm)) = x.entry (.mk key item) := by
  cases item with
  | table tb =>
    rcases tb with ⟨⟨b, m, d, p, tk⟩, t, a, s, n, dd⟩
    cases x <;> cases key <;> rfl
  | aot ts t n p => cases x <;> cases key <;> rfl
  | _ => rfl

theorem setName_clean (key : Option SKey) (item : Item) (nm : Str) :
    (Entry.mk key item).Clean → (Entry.mk key (item.setName nm)).Clean := by
  intro h
  cases item with
  | table tb =>
    rcases tb with ⟨c, t, a, s, n, dd⟩
    refine ⟨h.1, fun _ => rfl, ?_⟩
    rintro tb htb hs
    cases htb
    exact h.2.2 (.mk c t a s n dd) rfl hs
  | aot ts t n p => exact ⟨h.1, fun _ => rfl, fun tb htb => (by cases htb)⟩
  | _ => exact h

theorem setName_plain (item : Item) (nm : Str) : (item.setName nm).isPlain = item.isPlain := by
  cases item with
  | table tb => rcases tb with ⟨c, t, a, s, n, dd⟩; rfl
  | _ => rfl

/-! ### the text of super tables -/

/-- prefix of everything but dotted super tables -/
def Ctx.pfx : Ctx → Option Str
  | .top => none
  | .tbl _ _ key => some key

/-- a super table is written as its entries -/
theorem super_entry (x : Ctx) (k : SKey) (hd : k.dotted = false) (tb : Tbl) (hs : tb.superFlag = some true)
    (h : (Entry.mk (some k) (.table tb)).Clean) :
    x.entry (.mk (some k) (.table tb)) =
      (Ctx.tbl false false (withPrefix x.pfx k.orig)).text tb.cont.body := by
  obtain ⟨h1, h2, _, h3⟩ := h.2.2 tb rfl hs
  have hsh : showsHeader k tb = false := showsHeader_super hs h3
  have htp : x.tp (.mk (some k) (.table tb)) = x.pfx := by
    cases x with
    | top => rfl
    | tbl kd ia key =>
      show (if (tb.isSuper && k.dotted && (ia || !kd)) = true then none else some key) = _
      rw [hd]; simp [Ctx.pfx]
  unfold Ctx.entry
  rw [htp]
  generalize x.pfx = pfx
  rw [← tableBodyStr_ctx]
  have hhead : tableHeader k pfx tb = [] := by
    unfold tableHeader
    rw [hsh]
    simp [h2]
  have hkt : tableKeyText k pfx tb = withPrefix pfx k.orig := by unfold tableKeyText; rw [h1]
  rcases tb with ⟨⟨b, m, d, p, tk⟩, t, a, s, n, dd⟩
  show tableHeader k pfx _ ++ tableBodyStr k.dotted false (tableKeyText k pfx _) b = _
  rw [hhead, hkt, hd]; rfl

theorem super_prefix (x : Ctx) {k k' : SKey} (ho : k'.orig = k.orig) (hd : k.dotted = false) (hd' : k'.dotted = false) (tb tb' : Tbl)
    (hs : tb.superFlag = some true) (hs' : tb'.superFlag = some true)
    (h : (Entry.mk (some k) (.table tb)).Clean) (h' : (Entry.mk (some k') (.table tb')).Clean) {b : List Entry}
    (hb : ∀ x : Ctx, x.text tb'.cont.body = x.text tb.cont.body ++ x.text b) :
    x.entry (.mk (some k') (.table tb')) = x.entry (.mk (some k) (.table tb)) ++
      (Ctx.tbl false false (withPrefix x.pfx k.orig)).text b := by
  rw [super_entry x k hd tb hs h, super_entry x k' hd' tb' hs' h', hb, ho]

theorem aot_entry (x : Ctx) (k : SKey) (ts : List Tbl) (t : Trivia) (n : Option Str) (p : Bool) :
    x.entry (.mk (some k) (.aot ts t n p)) =
      aotRender (withPrefix x.pfx k.orig) ts := by
  cases x <;> rfl

theorem aotRender_append (key : Str) (a b : List Tbl) : aotRender key (a ++ b) = aotRender key a ++ aotRender key b := by
  induction a with
  | nil => rfl
  | cons t r ih => rw [List.cons_append, aotRender, aotRender, ih, List.append_assoc]

theorem cleanTables_append {a b : List Tbl} (ha : cleanTables a) (hb : cleanTables b) : cleanTables (a ++ b) := by
  rw [cleanTables_iff] at *
  intro t ht
  rcases List.mem_append.1 ht with h | h
  · exact ha t h
  · exact hb t h

/-! ### the text after an append -/

/-- the entry is added at the end of the text -/
structure AppText (c : Cont) (e : Entry) (c' : Cont) : Prop where
  clean : c'.Clean
  text : ∀ x : Ctx, x.text c'.body = x.text c.body ++ x.entry e
  plain : (∀ e ∈ c.body, e.v.isPlain = false) → e.v.isPlain = false → ∀ e ∈ c'.body, e.v.isPlain = false
  full : c'.body ≠ []

theorem AppText.snoc {c c' : Cont} {e e' : Entry} (hc : c.Clean) (he : e'.Clean) (hx : ∀ x : Ctx, x.entry e' = x.entry e)
    (hpl : e'.v.isPlain = e.v.isPlain) (hb : c'.body = c.body ++ [e']) (hp : c'.parsed = true) : AppText c e c' := by
  refine ⟨clean_snoc hc hb hp (by intro z hz; rw [List.mem_singleton] at hz; subst hz; exact he), ?_, ?_, by rw [hb]; simp⟩
  · intro x
    rw [hb, x.text_append, ← hx]
    simp [Ctx.text]
  · intro h1 h2 z hz
    rw [hb] at hz
    rcases List.mem_append.1 hz with hz | hz
    · exact h1 z hz
    · rw [List.mem_singleton] at hz; subst hz; rw [hpl]; exact h2

/-- replacing the last entry -/
theorem AppText.setLast {c : Cont} {i : Nat} {cur e : Entry} {v : Item} (hc : c.Clean) (hi : c.body[i]? = some cur)
    (hl : i + 1 = c.body.length) (he : (Entry.mk cur.key v).Clean) (hpl : v.isPlain = cur.v.isPlain)
    (hx : ∀ x : Ctx, x.entry (.mk cur.key v) = x.entry cur ++ x.entry e) : AppText c e (c.setAt i cur v) := by
  obtain ⟨pre, hpre⟩ : ∃ pre, c.body = pre ++ [cur] := by
    rcases c.body.eq_nil_or_concat with h | ⟨b, a, h⟩
    · rw [h] at hl; cases hl
    · rw [List.concat_eq_append] at h
      refine ⟨b, ?_⟩
      have hib : i = b.length := by rw [h] at hl; simpa using hl
      rw [h, hib] at hi
      simp at hi
      rw [h, hi]
  have hib : i = pre.length := by rw [hpre] at hl; simpa using hl
  have hb : (c.setAt i cur v).body = pre ++ [.mk cur.key v] := by
    show c.body.set i _ = _
    rw [hpre, hib]; simp
  rw [Cont.clean_iff] at hc
  refine ⟨?_, ?_, ?_, by rw [hb]; simp⟩
  · rw [Cont.clean_iff]
    refine ⟨hc.1, ?_⟩
    rw [hb]
    intro z hz
    rcases List.mem_append.1 hz with hz | hz
    · exact hc.2 z (by rw [hpre]; exact List.mem_append_left _ hz)
    · rw [List.mem_singleton] at hz; subst hz; exact he
  · intro x
    rw [hb, hpre, x.text_append, x.text_append]
    have h1 : ∀ e, x.text [e] = x.entry e := by intro e; simp [Ctx.text]
    rw [h1, h1, hx]; simp
  · intro h1 _ z hz
    rw [hb] at hz
    rcases List.mem_append.1 hz with hz | hz
    · exact h1 z (by rw [hpre]; exact List.mem_append_left _ hz)
    · rw [List.mem_singleton] at hz; subst hz
      show v.isPlain = false
      rw [hpl]
      exact h1 cur (by rw [hpre]; simp)

theorem lastEntry_at {c : Cont} {k : Str} {i : Nat} {e : Entry} (hl : c.lastEntry k = some (i, e)) : c.body[i]? = some e := by
  unfold Cont.lastEntry at hl
  rcases hm : mapGet k c.map with _ | is <;> rw [hm] at hl <;> simp only at hl
  · cases hl
  rcases hg : is.getLast? with _ | j <;> rw [hg] at hl <;> simp only at hl
  · cases hl
  rcases hb : c.body[j]? with _ | e' <;> rw [hb] at hl <;> simp at hl
  obtain ⟨rfl, rfl⟩ := hl
  exact hb

theorem bne_eq_false' {α : Type} [BEq α] [LawfulBEq α] {a b : α} (h : (a != b) = false) : a = b := by
  cases hh : (a == b)
  · rw [bne, hh] at h; cases h
  · exact eq_of_beq hh

theorem super_flag {t : Tbl} (h : t.Clean) (hs : t.isSuper = true) : t.superFlag = some true := by
  rcases ((Tbl.clean_iff t).1 h).2 with ⟨h1, _⟩ | h1
  · unfold Tbl.isSuper at hs; rw [h1] at hs; cases hs
  · exact h1

theorem deepCopy_ctx (c : Cont) (h : c.Clean) (x : Ctx) : x.text c.deepCopy.body = x.text c.body := by
  obtain ⟨⟨h1, h2⟩, _, _⟩ := Cont.deepCopy_text c h
  rcases c with ⟨b, m, d, p, tk⟩
  cases x with
  | top => rw [← bodyStr_ctx, ← bodyStr_ctx]; exact h1
  | tbl kd ia key => rw [← tableBodyStr_ctx, ← tableBodyStr_ctx]; exact h2 kd ia key

/-- the table after appending to it -/
structure TblText (t : Tbl) (e : Entry) (t' : Tbl) : Prop where
  shape : t' = t.setCont t'.cont
  app : AppText t.cont e t'.cont

theorem append1_text : ∀ n,
    (∀ (al validate : Bool) (c : Cont) (key : Option SKey) (item : Item) (c' : Cont), c.Clean → (Entry.mk key item).Clean →
      Cont.append1 n al validate c key item = .ok (c', false) → AppText c (.mk key item) c') ∧
    (∀ (al : Bool) (t : Tbl) (key : Option SKey) (item : Item) (t' : Tbl), t.cont.Clean → (Entry.mk key item).Clean →
      Tbl.append1 n al t key item = .ok (t', false) → TblText t (.mk key item) t') := by
  intro n
  induction n with
  | zero =>
    constructor
    · intro al validate c key item c' _ _ h; rw [Cont.append1] at h; cases h
    · intro al t key item t' _ _ h; rw [Tbl.append1] at h; cases h
  | succ n ih =>
    obtain ⟨ihC, ihT⟩ := ih
    constructor
    · intro al validate c key item c' hc he h
      have hpar := ((Cont.clean_iff c).1 hc).1
      have hprep : ∀ item', c.prepare key item = .ok item' → (Entry.mk key item').Clean ∧
          (∀ x : Ctx, x.entry (.mk key item') = x.entry (.mk key item)) ∧ item'.isPlain = item.isPlain := by
        intro item' hp
        have := prepare_parsed hpar hp
        split at this
        · rcases key with _ | k
          · cases this; exact ⟨he, fun _ => rfl, rfl⟩
          · cases this
            exact ⟨setName_clean _ _ _ he, fun x => setName_entry _ _ _ _, setName_plain _ _⟩
        · cases this; exact ⟨he, fun _ => rfl, rfl⟩
      generalize hmv : false = mv at h
      cases append1_cases h with
      | fresh item' _ hp hk ht =>
        obtain ⟨h1, h2, h3⟩ := hprep _ hp
        obtain ⟨hb, hp'⟩ := appendTail_parsed hpar ht
        exact .snoc hc h1 h2 h3 hb hp'
      | again item' _ k i cur ct tb hp hk hl hcv hii ht =>
        obtain ⟨h1, h2, h3⟩ := hprep _ hp
        obtain ⟨hb, hp'⟩ := appendTail_parsed hpar ht
        exact .snoc hc h1 h2 h3 hb hp'
      | aotAdd item' k i cur tb ts t nm p hp hk hal hl hcv hii ha => cases hmv
      | toAoT item' k i cur tb ct _ hp hk hal hl hcv hii ha hr2 => cases hmv
      | superApart item' k i cur tb ct _ idx hp hk hl hcv hii hs hs' hidx hr2 hv =>
        obtain ⟨h1, h2, h3⟩ := hprep _ hp
        have hidx : idx = c.body.length := by rw [hidx, hpar]; simp
        subst hidx
        rw [if_neg (Nat.lt_irrefl _)] at hr2
        obtain ⟨hb, hp'⟩ := rawAppend_keep hr2
        exact .snoc hc h1 h2 h3 hb (hp'.trans hpar)
      | superMerge item' k i cur tb ct ct' mv' hp hk hl hcv hii hs hs' hd hd' hf =>
        obtain ⟨h1, h2, h3⟩ := hprep _ hp
        subst hk hii
        have hmv := hmv.symm
        simp only [Bool.or_eq_false_iff] at hmv
        obtain ⟨⟨hm1, hm2⟩, rfl⟩ := hmv
        have hm1 := bne_eq_false' hm1
        have hm2 := bne_eq_false' hm2
        have hat := lastEntry_at hl
        have hcur := ((Cont.clean_iff c).1 hc).2 cur (List.mem_of_getElem? hat)
        rcases cur with ⟨ck, cv⟩
        simp only [Entry.v_mk] at hcv
        subst hcv
        rcases ck with _ | ck
        · cases hm2
        have hmo : ck.orig = k.orig := by simpa using hm2
        have hd' : ck.dotted = false := hd'
        have hct : ct.Clean := hcur.1
        have htb : tb.Clean := h1.1
        have hsf := super_flag hct hs
        have hsf' := super_flag htb hs'
        obtain ⟨g1, g2, g4, g3⟩ := hcur.2.2 ct rfl hsf
        have g3 := g3 hd'
        obtain ⟨q1, q2, _, q3⟩ := h1.2.2 tb rfl hsf'
        have q3 := q3 hd
        have hcc := ((Tbl.clean_iff ct).1 hct).1
        have htc := ((Cont.clean_iff _).1 ((Tbl.clean_iff tb).1 htb).1).2
        -- the loop over the entries of the new table
        have hloop : ∀ (l : List Entry) (t0 : Tbl) (b0 : Bool), foldE (fun (p : Tbl × Bool) (e : Entry) =>
            (Tbl.append1 n al p.1 e.key e.v).map fun q => (q.1, p.2 || q.2)) (t0, b0) l = .ok (ct', false) →
            (∀ e ∈ l, e.Clean) → (∀ e ∈ l, e.v.isPlain = false) → t0.cont.Clean → (∀ e ∈ t0.cont.body, e.v.isPlain = false) →
            ct' = t0.setCont ct'.cont ∧ ct'.cont.Clean ∧ (∀ x : Ctx, x.text ct'.cont.body = x.text t0.cont.body ++ x.text l) ∧
              (∀ e ∈ ct'.cont.body, e.v.isPlain = false) ∧ (t0.cont.body ≠ [] → ct'.cont.body ≠ []) := by
          intro l
          induction l with
          | nil =>
            intro t0 b0 hf _ _ hc0 hp0
            simp only [foldE, Except.ok.injEq, Prod.mk.injEq] at hf
            obtain ⟨rfl, rfl⟩ := hf
            exact ⟨by rcases t0 with ⟨c, t, a, s, n, dd⟩; rfl, hc0, fun x => by simp [Ctx.text], hp0, id⟩
          | cons e l ihl =>
            intro t0 b0 hf hl hlp hc0 hp0
            simp only [foldE] at hf
            rcases hr : Tbl.append1 n al t0 e.key e.v with er | ⟨t1, b1⟩ <;> rw [hr] at hf
            · cases hf
            · simp only [Except.map] at hf
              have hb1 : b1 = false := by
                -- the flag only grows
                have hgrow : ∀ (l : List Entry) (t0 : Tbl) (b0 : Bool), foldE (fun (p : Tbl × Bool) (e : Entry) =>
                    (Tbl.append1 n al p.1 e.key e.v).map fun q => (q.1, p.2 || q.2)) (t0, b0) l = .ok (ct', false) → b0 = false := by
                  intro l
                  induction l with
                  | nil =>
                    intro t0 b0 hf
                    simp only [foldE, Except.ok.injEq, Prod.mk.injEq] at hf
                    exact hf.2
                  | cons e l ihl =>
                    intro t0 b0 hf
                    simp only [foldE] at hf
                    rcases hr : Tbl.append1 n al t0 e.key e.v with er | ⟨t1, b1⟩ <;> rw [hr] at hf
                    · cases hf
                    · simp only [Except.map] at hf
                      have := ihl _ _ hf
                      simp only [Bool.or_eq_false_iff] at this
                      exact this.1
                have := hgrow _ _ _ hf
                simp only [Bool.or_eq_false_iff] at this
                exact this.2
              subst hb1
              have he1 := hl e (List.mem_cons_self ..)
              have happ := ihT al t0 e.key e.v t1 hc0 (by rcases e with ⟨ek, ev⟩; exact he1) hr
              have hpl := happ.app.plain hp0 (hlp e (List.mem_cons_self ..))
              obtain ⟨r1, r2, r3, r4, r5⟩ := ihl t1 _ hf (fun z hz => hl z (List.mem_cons_of_mem _ hz))
                (fun z hz => hlp z (List.mem_cons_of_mem _ hz)) happ.app.clean hpl
              refine ⟨?_, r2, ?_, r4, fun _ => r5 happ.app.full⟩
              · rw [r1, happ.shape]
                rcases t0 with ⟨c, t, a, s, n, dd⟩; rfl
              · intro x
                rw [r3, happ.app.text]
                rcases e with ⟨ek, ev⟩
                simp [Ctx.text]
        have hdc : ct.deepCopy.cont = ct.cont.deepCopy := by rw [Tbl.deepCopy_fields]; rfl
        obtain ⟨r1, r2, r3, r4, r5⟩ := hloop _ _ _ hf htc q3 (by rw [hdc]; exact (Cont.deepCopy_text _ hcc).2.2) (by
          rw [hdc, Cont.deepCopy_body]
          intro e he
          obtain ⟨e', he', rfl⟩ := List.mem_map.1 he
          rcases e' with ⟨ek, ev⟩
          exact (Item.deepCopy_kind ev).2.2.2.2.2.1.trans (g3 _ he'))
        rw [Tbl.deepCopy_fields] at r1
        have hs1 : ct'.superFlag = some true := by rw [r1]; exact hsf
        have hs2 : ct'.display = none := by rw [r1]; exact g1
        have hs3 : ct'.trivia.indent ≠ [10] := by rw [r1]; exact g2
        have hE : (Entry.mk (some ck) (.table ct')).Clean := by
          refine ⟨?_, fun _ => rfl, ?_⟩
          · show ct'.Clean
            rw [Tbl.clean_iff]
            exact ⟨r2, Or.inr hs1⟩
          · rintro tb' htb' _
            cases htb'
            exact ⟨hs2, hs3, r5 (by rw [hdc, Cont.deepCopy_body]; simpa using g4), fun _ => r4⟩
        have hr3 : ∀ x : Ctx, x.text ct'.cont.body = x.text ct.cont.body ++ x.text tb.cont.body := by
          intro x
          rw [r3, hdc, deepCopy_ctx _ hcc]
        refine .setLast hc hat hm1 hE rfl ?_
        intro x
        rw [← h2]
        show x.entry (.mk (some ck) (.table ct')) = _
        rw [super_prefix x (k := ck) rfl hd' hd' ct ct' hsf hs1 hcur hE hr3, super_entry x k hd tb hsf' h1, hmo]
      | aotMerge item' k i cur ts t nm p ts' t' nm' p' hp hk hal hl hcv hii =>
        obtain ⟨h1, h2, h3⟩ := hprep _ hp
        subst hk hii
        have hmv := hmv.symm
        simp only [Bool.or_eq_false_iff] at hmv
        obtain ⟨⟨hm1, hm2⟩, hm3⟩ := hmv
        have hm1 := bne_eq_false' hm1
        have hm2 := bne_eq_false' hm2
        have hat := lastEntry_at hl
        have hcur := ((Cont.clean_iff c).1 hc).2 cur (List.mem_of_getElem? hat)
        rcases cur with ⟨ck, cv⟩
        simp only [Entry.v_mk] at hcv
        subst hcv
        rcases ck with _ | ck
        · cases hm2
        have hmo : ck.orig = k.orig := by simpa using hm2
        obtain ⟨rfl, rfl, hcts⟩ := hcur.1
        have hfold : ∀ (l acc : List Tbl), l.foldl (aotAppend { trail := [] } true) acc = acc ++ l := by
          intro l
          induction l with
          | nil => intro acc; simp
          | cons a r ih =>
            intro acc
            rw [List.foldl_cons, aotAppend_parsed _ (by decide), ih]; simp
        rw [hfold]
        have hE : (Entry.mk (some ck) (.aot (ts' ++ ts) { trail := [] } nm' true)).Clean :=
          ⟨⟨rfl, rfl, cleanTables_append hcts h1.1.2.2⟩, fun _ => rfl, fun tb htb => (by cases htb)⟩
        refine .setLast hc hat hm1 hE rfl ?_
        intro x
        rw [← h2]
        show x.entry (.mk (some ck) (.aot (ts' ++ ts) { trail := [] } nm' true)) = _
        rw [aot_entry, aot_entry, aot_entry, aotRender_append, hmo]
    · intro al t key item t' hc he h
      rw [Tbl.append1] at h
      rcases hr : Cont.append1 n al true t.cont key item with er | ⟨c, mv⟩ <;> rw [hr] at h
      · cases h
      dsimp only at h
      have hfin : mv = false → t' = t.setCont c → TblText t (.mk key item) t' := by
        rintro rfl rfl
        refine ⟨by rcases t with ⟨c, t, a, s, n, dd⟩; rfl, ?_⟩
        have := ihC _ _ _ _ _ _ hc he hr
        rcases t with ⟨c, t, a, s, n, dd⟩
        exact this
      split at h
      · cases h
      · split at h
        · simp only [Except.ok.injEq, Prod.mk.injEq] at h
          exact hfin h.2 h.1.symm
        · split at h
          · cases h
          · split at h
            · cases h
            · split at h
              · simp only [Except.ok.injEq, Prod.mk.injEq] at h
                exact hfin h.2 h.1.symm
              · split at h
                · cases h
                · simp only [Except.ok.injEq, Prod.mk.injEq] at h
                  exact absurd h.2 (by simp)

end Tomlkit
