import Verif.Proofs.At
import Verif.Proofs.HeadAny
/-!
# The place of a table in a document that was read
-/
namespace Tomlkit
open _root_.Spec Tomlkit.Spec

theorem tblAppend1_flag {n : Nat} {al : Bool} {t t' : Tbl} {key : Option SKey} {v : Item} {b : Bool} (h : Tbl.append1 n al t key v = .ok (t', b)) :
    t'.superFlag = t.superFlag := by
  have hset : ∀ c, (t.setCont c).superFlag = t.superFlag := fun c => by cases t; rfl
  rcases n with _ | n
  · rw [Tbl.append1] at h; cases h
  rw [tbl_eq] at h
  generalize Cont.append1 n al true t.cont key v = x at h
  rcases x with e | ⟨c, mv⟩
  · cases h
  dsimp only at h
  generalize hasKey n c key = x at h
  rcases x with e | x
  · cases h
  dsimp only at h
  unfold tblTail at h
  generalize spaceRun t.trivia.indent = x at h
  rcases x with _ | ind
  · cases h; exact hset _
  dsimp only at h
  split at h
  · cases h
  generalize (Option.bind _ _ : Option (Nat × Entry)) = o at h
  rcases o with _ | ⟨i, e⟩
  · cases h
  dsimp only at h
  split at h
  · cases h; exact hset _
  split at h
  · cases h
  · cases h; exact hset _

theorem holds_lt {c : Cont} (hw : c.WF) {k : Str} {is : List Nat} (hm : mapGet k c.map = some is) {i : Nat} (hi : i ∈ is) : i < c.body.length := by
  obtain ⟨v, key, hb, _⟩ := (consistent_of_WF hw).cached k is hm i hi
  rcases Nat.lt_or_ge i c.body.length with h | h
  · exact h
  · rw [List.getElem?_eq_none h] at hb; cases hb

theorem off_of {c : Cont} (hw : c.WF) {k k' : Str} {is : List Nat} (hm : mapGet k c.map = some is) {i : Nat} (hi : i ∈ is) (hne : k' ≠ k) : Off c k' i := by
  intro js hj hij
  obtain ⟨v, key, hb, hk⟩ := (consistent_of_WF hw).cached k is hm i hi
  obtain ⟨v', key', hb', hk'⟩ := (consistent_of_WF hw).cached k' js hj i hij
  rw [hb] at hb'
  cases hb'
  exact hne (hk'.symm.trans hk)

/-- where a table that is there after a step was before -/
theorem once {n : Nat} {val : Bool} {c r : Cont} {k1 : SKey} {v : Item} (hg : c.Good PW) (h : Cont.append1 n false val c (some k1) v = .ok (r, false))
    {k : Str} {i : Nat} {key : Option SKey} {T : Tbl} (ho : OneTable r k i key T) (hT : T.superFlag = some false) :
    (k1.key ≠ k ∧ OneTable c k i key T) ∨
    (k1.key = k ∧ mapGet k c.map = none ∧ c.prepare (some k1) v = .ok (.table T) ∧ key = some k1 ∧ i = c.body.length ∧ c.rawAppend (some k1) (.table T) = .ok r) := by
  have hpw := ((Cont.good_iff _).1 hg).1
  have hp := hpw.parsed
  have hw := ((Cont.good_iff _).1 (good_WF_of_PW hg)).1
  rcases n with _ | n
  · rw [Cont.append1] at h; cases h
  have tail : ∀ {w : Item} {r : Cont}, c.appendTail (some k1) w = .ok r → c.rawAppend (some k1) w = .ok r := by
    intro w r h
    unfold Cont.appendTail at h
    simpa only [hp, Bool.not_true, Bool.and_false, Bool.false_and, Bool.false_eq_true, if_false] using h
  obtain ⟨ho1, ho2⟩ := ho
  -- another name
  have other : ∀ {w : Item}, c.rawAppend (some k1) w = .ok r → k1.key ≠ k → OneTable c k i key T := by
    intro w hr hne
    have hm : mapGet k c.map = some [i] := by
      unfold Cont.rawAppend at hr
      dsimp only at hr
      split at hr
      · split at hr
        · split at hr
          · cases hr; rwa [Cont.map_mk, mapGet_mapSet, if_neg hne] at ho1
          · cases hr
        · cases hr
      · cases hr; rwa [Cont.map_mk, mapGet_mapSet, if_neg hne] at ho1
    refine ⟨hm, ?_⟩
    rw [rawAppend_body hr, List.getElem?_append_left (holds_lt hw hm (by simp))] at ho2
    exact ho2
  -- the same name, already there
  have twice : ∀ {w : Item} {is : List Nat}, c.rawAppend (some k1) w = .ok r → mapGet k1.key c.map = some is → is ≠ [] → k1.key ≠ k := by
    rintro w is hr hm hne rfl
    unfold Cont.rawAppend at hr
    dsimp only at hr
    rw [hm] at hr
    dsimp only at hr
    split at hr
    · split at hr
      · cases hr
        rw [Cont.map_mk, mapGet_mapSet, if_pos rfl, Option.some.injEq] at ho1
        have := congrArg List.length ho1
        rcases is with _ | ⟨x, is⟩
        · exact hne rfl
        · simp at this
      · cases hr
    · cases hr
  have last : ∀ {j cur}, c.lastEntry k1.key = some (j, cur) → ∃ is, mapGet k1.key c.map = some is ∧ is ≠ [] := by
    intro j cur hl
    obtain ⟨_, is, h1, h2⟩ := lastEntry_get hl
    refine ⟨is, h1, ?_⟩
    rintro rfl
    cases h2
  have set : ∀ {j cur w}, c.lastEntry k1.key = some (j, cur) → r = c.setAt j cur w → (∀ x, w = .table x → x.superFlag = some false → False) → k1.key ≠ k ∧ OneTable c k i key T := by
    intro j cur w hl hr hx
    obtain ⟨hb, is, h1, h2⟩ := lastEntry_get hl
    rw [hr] at ho1 ho2
    have ho1 : mapGet k c.map = some [i] := ho1
    have ho2 : (c.body.set j (.mk cur.key w))[i]? = some (.mk key (.table T)) := ho2
    have hne : k1.key ≠ k := by
      rintro rfl
      rw [ho1] at h1
      cases h1
      have h2 : some i = some j := h2
      cases h2
      have hlt := holds_lt hw ho1 (i := i) (by simp)
      rw [List.getElem?_set_self hlt] at ho2
      cases ho2
      exact hx T rfl hT
    have hoff := off_of hw ho1 (i := i) (by simp) hne is h1
    have hji : j ≠ i := by
      rintro rfl
      exact hoff (List.mem_of_getLast? h2)
    rw [List.getElem?_set_ne hji] at ho2
    exact ⟨hne, ho1, ho2⟩
  have hout := append1_cases h
  generalize hb : false = b at hout
  cases hout with
  | fresh item' c' hp' hk ht =>
    have hr := tail ht
    by_cases hkk : k1.key = k
    · subst hkk
      have hm := hk k1 rfl
      have hr' := hr
      unfold Cont.rawAppend at hr
      dsimp only at hr
      rw [hm] at hr
      cases hr
      rw [Cont.map_mk, mapGet_mapSet, if_pos rfl] at ho1
      cases ho1
      rw [Cont.body_mk, List.getElem?_append_right (Nat.le_refl _), Nat.sub_self] at ho2
      cases ho2
      exact .inr ⟨rfl, hm, hp', rfl, rfl, hr'⟩
    · exact .inl ⟨hkk, other hr hkk⟩
  | again item' c' k' j cur ct tb hp' hk hl hc hi ht =>
    cases hk
    obtain ⟨is, h1, h2⟩ := last hl
    have hne := twice (tail ht) h1 h2
    exact .inl ⟨hne, other (tail ht) hne⟩
  | aotAdd => cases hb
  | toAoT => cases hb
  | superApart item' k' j cur tb ct c' idx hp' hk hl hc hi hs hs' hidx hr hv =>
    cases hk
    rw [if_neg (by rw [hidx, hp]; simp)] at hr
    obtain ⟨is, h1, h2⟩ := last hl
    have hne := twice hr h1 h2
    exact .inl ⟨hne, other hr hne⟩
  | superMerge item' k' j cur tb ct ct' mv hp' hk hl hc hi hs hs' hd hd' hf =>
    cases hk
    refine .inl (set hl rfl fun x hx hxf => ?_)
    cases hx
    have hflag : ct'.superFlag = ct.superFlag := by
      refine foldE_inv (fun p : Tbl × Bool => p.1.superFlag = ct.superFlag) (b' := (ct', mv)) ?_ ?_ hf
      · show ct.deepCopy.superFlag = _
        rw [Tbl.deepCopy_fields]; rfl
      · rintro ⟨t0, b0⟩ a ⟨t1, b1⟩ _ hq hfa
        dsimp only at hfa
        generalize hz : Tbl.append1 n _ t0 a.key a.v = z at hfa
        rcases z with e | ⟨t2, b2⟩
        · cases hfa
        · cases hfa
          exact (tblAppend1_flag hz).trans hq
    rw [hflag] at hxf
    unfold Tbl.isSuper at hs
    rw [hxf] at hs
    cases hs
  | aotMerge item' k' j cur ts t nm p ts' t' nm' p' hp' hk hal hl =>
    cases hk
    exact .inl (set hl rfl fun x hx _ => by cases hx)

/-- what comes before is left -/
theorem append1_take {n : Nat} {val : Bool} {c r : Cont} {k1 : SKey} {v : Item} (hp : c.parsed = true) (h : Cont.append1 n false val c (some k1) v = .ok (r, false))
    {i : Nat} (hi : i < c.body.length) : r.body.take i = c.body.take i := by
  rcases n with _ | n
  · rw [Cont.append1] at h; cases h
  have raw : ∀ {w : Item}, c.rawAppend (some k1) w = .ok r → r.body.take i = c.body.take i := by
    intro w hr
    rw [rawAppend_body hr, List.take_append_of_le_length (Nat.le_of_lt hi)]
  have tail : ∀ {w : Item}, c.appendTail (some k1) w = .ok r → r.body.take i = c.body.take i := by
    intro w h
    unfold Cont.appendTail at h
    exact raw (by simpa only [hp, Bool.not_true, Bool.and_false, Bool.false_and, Bool.false_eq_true, if_false] using h)
  have set : ∀ (j : Nat) (cur : Entry) (w : Item), (j + 1 != c.body.length) = false → (c.setAt j cur w).body.take i = c.body.take i := by
    intro j cur w hj
    show (c.body.set j (.mk cur.key w)).take i = _
    have : j + 1 = c.body.length := by simpa using hj
    rw [List.take_set_of_le (by omega)]
  have hout := append1_cases h
  generalize hb : false = b at hout
  cases hout with
  | fresh item' c' hp' hk ht => exact tail ht
  | again item' c' k' j cur ct tb hp' hk hl hc hi ht => exact tail ht
  | aotAdd => cases hb
  | toAoT => cases hb
  | superApart item' k' j cur tb ct c' idx hp' hk hl hc hi hs hs' hidx hr hv =>
    rw [if_neg (by rw [hidx, hp]; simp)] at hr
    exact raw hr
  | superMerge item' k' j cur tb ct ct' mv hp' hk hl hc hi hs hs' hd hd' hf =>
    refine set j cur _ ?_
    have := hb.symm
    simp only [Bool.or_eq_false_iff] at this
    exact this.1.1
  | aotMerge item' k' j cur ts t nm p ts' t' nm' p' hp' hk hal hl =>
    refine set j cur _ ?_
    have := hb.symm
    simp only [Bool.or_eq_false_iff] at this
    exact this.1.1

/-- the tables that are read later do not look into a table that is there -/
def Later (d d1 : Cont) (i : Nat) (st s : St) : Prop :=
  d1.body.take i = d.body.take i ∧ ∀ e n' lg, (d.setE i e).Good PW →
    Follow (topTables n' (d.setE i e) (st.log lg)) fun d' s' => d' = d1.setE i e ∧ s' = s.log lg

/-- the turn at which a table is read -/
structure Turn (st s : St) (d d1 : Cont) (k : Str) (i : Nat) (key : Option SKey) (T : Tbl) (st0 s0 : St) (dI d2 : Cont) (k1 : SKey) (m : Nat) (u : Str) : Prop where
  text : st.rest = u ++ st0.rest
  ready : Ready st0
  aot : st0.aot = []
  loss : st0.loss = []
  ne : st0.rest ≠ []
  run : parseTable m none st0 = .ok (.single k1, .table T) s0
  loss' : s0.loss = []
  key : key = some k1
  name : k1.key = k
  pos : i = dI.body.length
  good : dI.Good PW
  new : mapGet k dI.map = none
  raw : dI.rawAppend (some k1) (.table T) = .ok d2
  body : Ctx.top.text d.body ++ pend st = Ctx.top.text dI.body ++ pend st0
  later : Later d2 d1 i s0 s
  front : ∀ R1, Meet st0 R1 → Meet st (u ++ R1) ∧ ∀ n', (∃ x, topTables n' d ⟨u ++ R1, st.ext, [], []⟩ = .err .fuel x) ∨
    ∃ n'', topTables n' d ⟨u ++ R1, st.ext, [], []⟩ = topTables n'' dI ⟨R1, st0.ext, [], []⟩

theorem prepare_same_name {c : Cont} {k : SKey} {v w : Item} (hp : c.parsed = true) (hn : v.isTable = true → v.name?.isSome = true) (h : c.prepare (some k) v = .ok w)
    {T : Tbl} (hw : w = .table T) : v = .table T := by
  subst hw
  have hv : v.isTable = true := by
    obtain ⟨w', g1, g2, _⟩ := prepare_kind (c := c) (k := k) (v := v)
    rw [g1] at h; cases h
    rw [← g2]; rfl
  have hn := hn hv
  rcases v with _ | _ | _ | _ | _ | _ | _ | _ | _ | _ | _ | tb | ⟨ts, t, nm, p⟩ | _ <;> try (cases hv)
  unfold Cont.prepare at h
  rw [if_neg (by
    have : (Item.table tb).name?.isNone = false := by
      rcases hx : (Item.table tb).name? with _ | x
      · rw [hx] at hn; cases hn
      · rfl
    rw [this]; simp)] at h
  dsimp only at h
  rw [hp] at h
  simp only [Bool.true_or, Bool.not_true, Bool.and_false, Bool.false_and, Bool.false_eq_true, if_false, if_true] at h
  cases h
  rfl

theorem tableLoop_shape {n : Nat} {full : Key} {tb tb1 : Tbl} {st s : St} (h : tableLoop n full tb st = .ok tb1 s) (hl : s.loss = []) (hc : tb.cont.Clean) :
    tb1 = tb.setCont tb1.cont := (keeps_fact ((tables_keep n).2.1 st full tb) h hl hc).shape

theorem chain_name (h : Header) (leaf : Tbl) (t : Trivia) (a : Bool) (nm : Str) (k : SKey) (r : List SKey) : (h.chain leaf t a nm (k :: r)).name = some nm ∧
    (h.chain leaf t a nm (k :: r)).superFlag = some true := by
  cases r <;> exact ⟨rfl, rfl⟩

theorem tableEnd_inv {n : Nat} {hd : Header} {parts : List SKey} {tb : Tbl} {st s : St} {p : Key × Item} (h : tableEnd n hd parts tb st = .ok p s) :
    (∃ k q r, parts = k :: q :: r ∧ ∃ a, p = (.single k, .table (hd.chain tb ⟨[], hd.cws, hd.comment, hd.trail⟩ a k.key (q :: r))) ∧ s = st) ∨
    (hd.newAot st.aot = true ∧ p.2.isTable = false) ∨ (hd.newAot st.aot = false ∧ (∀ k q r, parts ≠ k :: q :: r) ∧ p = (hd.lastKey parts, .table tb) ∧ s = st) := by
  unfold tableEnd at h
  have hre : ∀ l, (if hd.newAot st.aot then (parseAot n tb hd.key >>= fun a => pure (hd.lastKey l, a) : P (Key × Item)) st
      else .ok (hd.lastKey l, .table tb) st) = .ok p s → (hd.newAot st.aot = true ∧ p.2.isTable = false) ∨ (hd.newAot st.aot = false ∧ p = (hd.lastKey l, .table tb) ∧ s = st) := by
    intro l h
    split at h
    · rename_i hx
      obtain ⟨a, s5, q5, h⟩ := bind_ok h
      cases h
      refine .inl ⟨hx, ?_⟩
      show a.isTable = false
      rcases n with _ | n
      · cases q5
      · rw [parseAot] at q5
        obtain ⟨_, s6, q6, q5⟩ := bind_ok q5
        obtain ⟨ts, s7, q7, q5⟩ := bind_ok q5
        obtain ⟨_, s8, q8, q5⟩ := bind_ok q5
        cases q5
        rfl
    · rename_i hx
      cases h
      exact .inr ⟨by simpa using hx, rfl, rfl⟩
  rcases parts with _ | ⟨k, _ | ⟨q, r⟩⟩
  · rcases hre _ h with h | ⟨h1, h2⟩
    · exact .inr (.inl h)
    · exact .inr (.inr ⟨h1, (fun _ _ _ h => by cases h), h2⟩)
  · rcases hre _ h with h | ⟨h1, h2⟩
    · exact .inr (.inl h)
    · exact .inr (.inr ⟨h1, (fun _ _ _ h => by cases h), h2⟩)
  · cases h
    exact .inl ⟨k, q, r, rfl, _, rfl, rfl⟩

theorem table_named {n : Nat} {parent : Option Key} {st s : St} {p : Key × Item} (h : parseTable n parent st = .ok p s) (hl : s.loss = []) :
    p.2.isTable = true → p.2.name?.isSome = true := by
  intro ht
  rcases n with _ | n
  · cases h
  obtain ⟨hd, s1, tb, s2, h1, hl1, hno, h2, hl2, hv, h3⟩ := parseTable_step h hl
  rcases tableEnd_inv h3 with ⟨k, q, r, _, a, rfl, _⟩ | ⟨_, h4⟩ | ⟨_, _, rfl, _⟩
  · show (Item.table (hd.chain _ _ _ _ _)).name?.isSome = true
    show (hd.chain _ _ _ _ _).name.isSome = true
    rw [(chain_name _ _ _ _ _ _ _).1]; rfl
  · rw [h4] at ht; cases ht
  · have hs := tableLoop_shape h2 hl2 ⟨rfl, trivial⟩
    show tb.name.isSome = true
    rw [hs]; rfl

/-- **Where a table was read.** -/
theorem found : ∀ (n : Nat) (st s : St) (d d1 : Cont) (k : Str) (i : Nat) (key : Option SKey) (T : Tbl), Ready st → st.aot = [] → st.loss = [] → topTables n d st = .ok d1 s →
    s.loss = [] → d.Good PW → d.Clean → OneTable d1 k i key T → T.superFlag = some false →
    (OneTable d k i key T ∧ Later d d1 i st s) ∨ ∃ st0 s0 dI d2 k1 m u, Turn st s d d1 k i key T st0 s0 dI d2 k1 m u := by
  intro n
  induction n with
  | zero => intro st s d d1 k i key T _ _ _ h; cases h
  | succ n ih =>
    intro st s d d1 k i key T hR ha hst h hl hg hcl ho hT
    rcases topTables_turn hR ha h hl with ⟨h0, rfl, rfl⟩ | ⟨hne, p, s1, h1, hl1, d2, hap, h2⟩
    · refine .inl ⟨ho, rfl, fun e n' lg hge => ?_⟩
      rcases n' with _ | n'
      · exact .fuel
      rw [topTables, getSt_bind, if_pos (atEnd_iff.2 (show (s.log lg).rest = [] from h0))]
      exact .ok ⟨rfl, rfl⟩
    have hv := parseTable_good h1
    obtain ⟨u0, b0, k0, htab⟩ := keeps_fact ((tables_keep n).1 st none) h1 hl1 hR
    have hR1 := htab.ready
    obtain ⟨k1, hk1, hkt, hent⟩ := htab.entry (List.length_pos_iff.2 htab.ne)
    obtain ⟨pk, pv⟩ := p
    simp only at hk1
    subst hk1
    have hp := ((Cont.good_iff _).1 hg).1.parsed
    have happ := append_table hcl hkt.clean hap
    have hap : Cont.append1 (fuelFor d pv) false true d (some k1) pv = .ok (d2, false) := hap
    have hg2 := (append1_good closed_PW _).1 hg hv hap
    have ha1 : s1.aot = [] := htab.aot.trans ha
    have hw := ((Cont.good_iff _).1 (good_WF_of_PW hg)).1
    rcases ih s1 s d2 d1 k i key T hR1 ha1 hl1 h2 hl hg2 happ.clean ho hT with ⟨ho2, htk, hfol⟩ | ⟨st0, s0, dI, d3, k2, m, u, ht⟩
    · rcases once hg hap ho2 hT with ⟨hkk, ho1⟩ | ⟨hkk, hm, hpr, hkey, hi, hr⟩
      · have hi := holds_lt hw ho1.1 (i := i) (by simp)
        refine .inl ⟨ho1, htk.trans (append1_take hp hap hi), fun e n' lg hge => ?_⟩
        rcases n' with _ | n'
        · exact .fuel
        rw [topTables_eq n' _ _ (show (st.log lg).rest ≠ [] from hne)]
        refine Follow.bind (table_again h1 hst hl1 n' lg) fun p' s' _ hF => ?_
        obtain ⟨rfl, rfl⟩ := hF
        rw [topValue_plain n' _ (table_plain hR h1 hl1 ha)]
        refine Follow.step (s := s1.log lg) (a := pv) rfl ?_
        have hrun := append1_setE (e := e) (off_of hw ho1.1 (i := i) (by simp) hkk) hi hp (fuelFor d pv) true pv
        rw [hap] at hrun
        have hrun : Cont.append1 (fuelFor d pv) false true (d.setE i e) (some k1) pv = .ok (d2.setE i e, false) := hrun
        have hap' := append1_any hge hv hrun
        refine follow_wrap (show Cont.append true (d.setE i e) (some (.single k1)) pv = _ from hap') ?_
        refine Follow.step (s := s1.log lg) (a := ()) rfl ?_
        exact hfol e n' lg ((append1_good closed_PW _).1 hge hv hap')
      · have hpv := prepare_same_name hp (table_named h1 hl1) hpr rfl
        subst hpv
        exact .inr ⟨st, s1, d, d2, k1, n, [], rfl, hR, ha, hst, hne, h1, hl1, hkey, hkk, hi, hg, hm, hr, rfl, ⟨htk, hfol⟩,
          fun R1 hmt => ⟨hmt, fun n' => .inr ⟨n', rfl⟩⟩⟩
    · obtain ⟨_, u1, hu1, hfront⟩ := (tables_front n).1 st s1 none _ hR hst h1 hl1
      refine .inr ⟨st0, s0, dI, d3, k2, m, u1 ++ u, by rw [hu1, ht.text, List.append_assoc], ht.ready, ht.aot, ht.loss, ht.ne, ht.run, ht.loss', ht.key, ht.name, ht.pos, ht.good, ht.new, ht.raw, ?_, ht.later, ?_⟩
      · rw [← ht.body, happ.text, hent Ctx.top rfl, List.append_assoc, ← htab.text]
      · intro R1 hmt
        obtain ⟨hm1, hr1⟩ := ht.front R1 hmt
        obtain ⟨hm2, hr2⟩ := hfront _ hm1
        rw [List.append_assoc]
        refine ⟨hm2, fun n' => ?_⟩
        rcases n' with _ | n'
        · exact .inl ⟨_, rfl⟩
        have hne' : u1 ++ (u ++ R1) ≠ [] := fun h0 => hne ((nil_of_head hm2.head).1 h0)
        rw [topTables_eq n' _ _ hne']
        have hr2 := hr2 n'
        rw [ha] at hr2
        rcases hr2 with ⟨x, hx⟩ | ⟨p', s', hx, rfl, hh⟩
        · exact .inl ⟨x, by rw [Tomlkit.P.bind_def, hx]⟩
        · have hs1 : s1.rest ≠ [] := by rw [ht.text]; intro h0; exact ht.ne (List.append_eq_nil_iff.1 h0).2
          have hstate : s' = ⟨u ++ R1, s1.ext, [], []⟩ := by
            rw [hh.state, hh.ext hs1, ha1]
          rw [hstate] at hx
          have hgo : (parseTable n' none >>= fun p => topValue n' p >>= fun v => wrapErr (Cont.append true d (some p.1) v) >>= fun r => note r.2 .reordered >>= fun _ => topTables n' r.1)
              ⟨u1 ++ (u ++ R1), st.ext, [], []⟩ = topTables n' d2 ⟨u ++ R1, s1.ext, [], []⟩ := by
            refine (bind_step hx).trans ?_
            rw [topValue_plain n' _ (table_plain hR h1 hl1 ha)]
            refine (bind_step (show (pure pv : P Item) ⟨u ++ R1, s1.ext, [], []⟩ = .ok pv _ from rfl)).trans ?_
            have : wrapErr (Cont.append true d (some (Key.single k1)) pv) ⟨u ++ R1, s1.ext, [], []⟩ = .ok (d2, false) ⟨u ++ R1, s1.ext, [], []⟩ := by
              rw [show Cont.append true d (some (Key.single k1)) pv = _ from hap]; rfl
            refine (bind_step this).trans ?_
            exact bind_step (note_no _ _)
          rw [hgo]
          exact hr1 n'

end Tomlkit
