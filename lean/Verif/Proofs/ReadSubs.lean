import Verif.Proofs.ReadTables
/-!
# Reading tables: the induction over the text
-/
namespace Tomlkit
open _root_.Spec Tomlkit.Spec

theorem lines_tail {text tail : Str} {L : List (List Str × PyVal)} (h : Lines text tail L) :
    (tail = [] ∨ ∃ r, tail = 91 :: r) ∧ tail.length ≤ text.length := by
  induction h with
  | stop h => exact ⟨h, Nat.le_refl _⟩
  | ind _ h => exact ⟨.inr h, by simp⟩
  | blank _ _ _ _ ih => exact ⟨ih.1, by have := ih.2; simp; omega⟩
  | cmt _ _ _ _ ih => exact ⟨ih.1, by have := ih.2; simp; omega⟩
  | kv _ _ _ _ _ _ _ _ ih => exact ⟨ih.1, by have := ih.2; simp; omega⟩

theorem txt_length {kd : Kind} {av : Option Str} {p q : List Str} {text tail : Str} {w : PyVal} (h : Txt kd av p q text tail w) :
    tail.length ≤ text.length := by
  induction h with
  | tab h1 _ _ _ ih => exact Nat.le_trans ih (lines_tail h1).2
  | none => exact Nat.le_refl _
  | table _ _ _ _ _ _ _ ih1 ih2 => simp; omega
  | super _ _ _ _ ih1 ih2 => omega
  | aot _ _ _ _ _ _ _ _ _ ih1 ih2 ih3 => simp; omega
  | nil => exact Nat.le_refl _
  | cons _ _ _ _ _ _ ih1 ih2 => simp; omega

theorem Spine.mono {P P' : Cont → Prop} (hP : ∀ c, P c → P' c) {c : Cont} {fr : List (Str × List PyPair)} (h : Spine P c fr) : Spine P' c fr := by
  induction h with
  | here h => exact .here (hP _ h)
  | into hc hkey hb gb hd hk hs ha _ ih => exact .into hc hkey hb gb hd hk hs ha ih
  | fresh h hk hfr h0 => exact .fresh h hk hfr (hP _ h0)

/-- reading the entries and sub-tables of a table -/
def MTab (av : Option Str) (P : List Str) (text tail : Str) (l : List PyPair) : Prop :=
  ∀ (n : Nat) (full : Key) (tb0 : Tbl) (e : Str) (a : List Key) (lg : List Loss), KeyPath full P → text.length + 2 ≤ n → Stops P tail →
    StackOk av P.length a → tb0.cont = Cont.empty true →
    ∃ c e' lg', tableLoop n full tb0 ⟨text, e, a, lg⟩ = .ok (tb0.setCont c) ⟨tail, e', a, lg'⟩ ∧ ReadCont c l ∧ c.Good PW

/-- reading the sub-tables below a path of implicit tables -/
def MSubs (av : Option Str) (p q : List Str) (text tail : Str) (l : List PyPair) : Prop :=
  ∀ (α : Type) (L : Nat → Cont → St → Res α) (parent : Option Key), TSink parent L → ParentPath parent p →
    ∀ (n : Nat) (c : Cont) (fr : List (Str × List PyPair)) (l0 : List PyPair) (e : Str) (a : List Key) (lg : List Loss),
      text.length + 1 ≤ n → fr.map Prod.fst = q → Spine (ReadCont · l0) c fr → c.Good PW →
      (∀ k ∈ l.map PyPair.key, k ∉ l0.map PyPair.key) → Stops (p ++ q) tail → StackOk av p.length a →
      ∃ n' c' e' lg', L n c ⟨text, e, a, lg⟩ = L n' c' ⟨tail, e', a, lg'⟩ ∧ Spine (ReadCont · (l0 ++ l)) c' fr ∧ c'.Good PW ∧
        n + tail.length ≤ n' + text.length

/-- reading further elements of an array of tables, in its own loop -/
def MElems (av : Option Str) (P : List Str) (text tail : Str) (ls : List PyVal) : Prop :=
  ∀ (n : Nat) (name : Key) (ts : List Tbl) (e : Str) (a : List Key) (lg : List Loss), KeyPath name P → text.length + 1 ≤ n →
    a.getLast? = some name → StackOk av P.length a → Past P tail →
    ∃ ts' e' lg', aotLoop n name ts ⟨text, e, a, lg⟩ = .ok (ts ++ ts') ⟨tail, e', a, lg'⟩ ∧
      MeansAll ls (ts'.map Item.table) ∧ ∀ t ∈ ts', t.Good PW

/-- reading further elements of an array of tables below a path of implicit tables: each is appended by itself -/
def MMore (av : Option Str) (P : List Str) (text tail : Str) (ls : List PyVal) : Prop :=
  ∀ (p q : List Str) (k : Str) (α : Type) (L : Nat → Cont → St → Res α) (parent : Option Key), P = p ++ q ++ [k] → q ≠ [] →
    (∀ y, q.head? = some y → av ≠ some y) → TSink parent L → ParentPath parent p →
    ∀ (n : Nat) (c : Cont) (fr : List (Str × List PyPair)) (l : List PyPair) (a0 : List PyVal) (e : Str) (a : List Key) (lg : List Loss),
      text.length + 1 ≤ n → fr.map Prod.fst = q → Spine (AotCont l k a0) c fr → c.Good PW → Past P tail → StackOk av p.length a →
      ∃ n' c' e' lg', L n c ⟨text, e, a, lg⟩ = L n' c' ⟨tail, e', a, lg'⟩ ∧ Spine (AotCont l k (a0 ++ ls)) c' fr ∧ c'.Good PW ∧
        n + tail.length ≤ n' + text.length

def Motive : Kind → Option Str → List Str → List Str → Str → Str → PyVal → Prop
  | .tab, av, P, _, text, tail, .dict l => MTab av P text tail l
  | .subs, av, p, q, text, tail, .dict l => MSubs av p q text tail l
  | .elems, av, P, _, text, tail, .list ls => MElems av P text tail ls ∧ MMore av P text tail ls
  | _, _, _, _, _, _, _ => True

theorem leaf_setCont_good {h : Header} {nm : Str} {c : Cont} (hg : c.Good PW) : ((h.leaf nm).setCont c).Good PW := by
  rw [Tbl.good_iff, setCont_cont]; exact hg

theorem meansAll_one {d : PyVal} {t : Tbl} (h : Means d (.table t)) : MeansAll [d] ([t].map Item.table) := by
  unfold MeansAll
  exact ⟨_, _, rfl, h, by unfold MeansAll; rfl⟩

theorem mkAoT_means {ts : List Tbl} {ls : List PyVal} (h : MeansAll ls (ts.map Item.table)) (p : Bool) :
    MeansAll ls ((ts.foldl (aotAppend { trail := [] } p) []).map Item.table) := by
  have := aotFold_means { trail := [] } p ts [] ls [] h (by unfold MeansAll; rfl)
  simpa using this

theorem head_length {H : Str} {q : List Str} (hH : HeadReads H q) (isAot : Bool) (b cm nl t0 : Str) :
    t0.length + 3 ≤ (headOpen isAot ++ (H ++ (headClose isAot ++ (b ++ (cm ++ (nl ++ t0)))))).length := by
  obtain ⟨⟨c, r, rfl, _⟩, _⟩ := hH
  cases isAot <;> simp [headOpen, headClose] <;> omega

/-- A header in one of the loops over tables: the table is read and appended where it belongs. -/
theorem step_piece {α : Type} {L : Nat → Cont → St → Res α} {parent : Option Key} (hL : TSink parent L) {av : Option Str} {p q : List Str}
    (hp : ParentPath parent p) {k H b cm nl t0 t1 : Str} {d : List PyPair} (hH : HeadReads H (p ++ q ++ [k])) (hb : Spaces b) (hc : Cmt cm)
    (hn : Eol nl t0) (isAot : Bool) (hq : isAot = true → q ≠ [] ∧ ∀ y, q.head? = some y → av ≠ some y)
    (h1 : MTab av (p ++ q ++ [k]) t0 t1 d) (hs : Stops (p ++ q ++ [k]) t1) {P P' : Cont → Prop}
    (hcopy : ∀ c, P c → c.Good PW → P c.deepCopy)
    (hre : Reind P' k) (hS : ∀ tb leafnm, Means (.dict d) (.table tb) → LeafStep P P' k (if isAot then mkAoT [tb] (some leafnm) true else .table tb))
    (n : Nat) {c : Cont} {fr : List (Str × List PyPair)} (e : Str) (a : List Key) (lg : List Loss)
    (hlen : (headOpen isAot ++ (H ++ (headClose isAot ++ (b ++ (cm ++ (nl ++ t0)))))).length + 1 ≤ n) (hfr : fr.map Prod.fst = q)
    (hsp : Spine P c fr) (hg : c.Good PW) (ha : StackOk av p.length a) :
    ∃ n' c' e' lg', L n c ⟨headOpen isAot ++ (H ++ (headClose isAot ++ (b ++ (cm ++ (nl ++ t0))))), e, a, lg⟩ =
        L n' c' ⟨t1, e', a, lg'⟩ ∧ Spine P' c' fr ∧ c'.Good PW ∧ n = n' + 1 := by
  have hl3 := head_length hH isAot b cm nl t0
  obtain ⟨m, rfl⟩ : ∃ m, n = m + 2 := ⟨n - 2, by omega⟩
  rw [List.append_assoc] at hH h1 hs
  obtain ⟨h, parts, nm, e1, lg1, g2, g3, g4, g5, g6, g7⟩ := parseTable_open hp hH hb hc hn isAot e a lg m
  obtain ⟨c1, e2, lg2, k1, k3, k4⟩ := h1 m h.key (h.leaf nm) e1 a lg1 g3 (by omega) hs (ha.mono (by simp)) rfl
  have hT := g7 c1 e2 t1 lg2 d k1 k3
  obtain ⟨sk, item, leafnm, rest, f1, f2, f3, f4, f5, f6⟩ := finish_piece m h ((h.leaf nm).setCont c1) g4 g5 ⟨t1, e2, a, lg2⟩
    (fun hA => by
      obtain ⟨u1, u2⟩ := hq (by rw [← g2]; exact hA)
      exact ⟨u1, fun x hx => ha.any (u2 x.key hx)⟩)
  rw [f1] at hT
  have hmeans : Means (.dict d) (.table ((h.leaf nm).setCont c1)) := means_super (by rw [setCont_cont]; exact k3)
  have hgt : ((h.leaf nm).setCont c1).Good PW := leaf_setCont_good k4
  have hgl : (if h.isAot then mkAoT [(h.leaf nm).setCont c1] (some leafnm) true else Item.table ((h.leaf nm).setCont c1)).Good PW := by
    split
    · exact mkAoT_good (by intro x hx; rw [List.mem_singleton] at hx; subst hx; exact hgt)
    · exact hgt
  have hS' := hS _ leafnm hmeans
  rw [← g2] at hS'
  have hnm : (if h.isAot then mkAoT [(h.leaf nm).setCont c1] (some leafnm) true else Item.table ((h.leaf nm).setCont c1)).name?.isSome = true := by
    split <;> rfl
  have hap := fun b' => append_piece hcopy hS' hre hsp hg hgl f6 (by rw [f2, hfr]) f3 (fun _ => hnm) b'
  obtain ⟨K, hpk, hK⟩ := peek_reads (peeks_head isAot hH (b ++ (cm ++ (nl ++ t0)))) e a lg
  obtain ⟨c', l', r1, r2, r3⟩ := hL (fun c' => Spine P' c' fr ∧ c'.Good PW) (m + 1) c _ _ sk item isAot K
    (by show headOpen isAot ++ _ ≠ []; cases isAot <;> simp [headOpen]) hpk
    (fun full hf => by
      subst hf
      rw [isChild_path hp hK]
      simp)
    hT (fun tb htb => by
      by_cases hq0 : q = []
      · have := f5 hq0
        rw [this] at htb
        cases htb
        have : isAot = false := by
          cases isAot with
          | false => rfl
          | true => exact absurd hq0 (hq rfl).1
        rw [← g2] at this
        exact this
      · exact f4 tb htb hq0) hap
  exact ⟨m + 1, c', e2, l', r1, r2, r3, by omega⟩

theorem parseItem_bracket {b : Str} (hb : Spaces b) (r e : Str) (a : List Key) (lg : List Loss) :
    parseItem ⟨b ++ 91 :: r, e, a, lg⟩ = .ok none ⟨91 :: r, b, a, lg⟩ := by
  have h1 : isSpTabCr 91 = false := rfl
  have d1 := takeWhile_append_stop (spaces_spTabCr hb) h1 r
  have d2 := dropWhile_append_stop (spaces_spTabCr hb) h1 r
  unfold parseItem
  rw [mark_bind, getSt_bind, skip_bind, getSt_bind]
  simp only [d1, d2, List.nil_append]
  simp [St.cur, St.atEnd]

theorem subs_bracket {av : Option Str} {p q : List Str} {text tail : Str} {l : List PyPair} (h : Txt .subs av p q text tail (.dict l)) :
    text = tail ∧ l = [] ∨ ∃ r, text = 91 :: r := by
  rcases txt_start h with h | ⟨b, k, r, _, h⟩
  · exact .inl h
  · exact .inr h.cons

theorem childLoop_stops {P : List Str} {tail : Str} (hs : Stops P tail) {full : Key} (hf : KeyPath full P) (n : Nat) (hn : 1 ≤ n) (tb : Tbl)
    (e : Str) (a : List Key) (lg : List Loss) : childLoop n full tb ⟨tail, e, a, lg⟩ = .ok tb ⟨tail, e, a, lg⟩ := by
  obtain ⟨m, rfl⟩ : ∃ m, n = m + 1 := ⟨n - 1, by omega⟩
  rcases hs with rfl | ⟨b, q, h1, h2⟩
  · rw [childLoop, getSt_bind, if_pos (by rfl)]; rfl
  · obtain ⟨r, rfl⟩ := h1.cons
    obtain ⟨K, hpk, hK⟩ := peek_reads h1 e a lg
    rw [childLoop, getSt_bind, if_neg (by simp [St.atEnd]), Tomlkit.P.bind_def, hpk]
    dsimp only
    rw [isChild_path hf hK, decide_eq_false h2]
    rfl

theorem mtab_case {av : Option Str} {P : List Str} {text t1 tail : Str} {L : List (List Str × PyVal)} {l1 l2 : List PyPair} (h1 : Lines text t1 L) (hn : Nest L l1)
    (h2 : Txt .subs av P [] t1 tail (.dict l2)) (hd : ∀ k ∈ l2.map PyPair.key, k ∉ l1.map PyPair.key) (ih : MSubs av P [] t1 tail l2) :
    MTab av P text tail (l1 ++ l2) := by
  intro n full tb0 e a lg hf hlen hs ha htb
  have htb0 : tb0.setCont (Cont.empty true) = tb0 := by rw [← htb]; exact setCont_self _
  obtain ⟨n1, c1, e1, lg1, bb, rb, rb', r1, r2, r3, _, r5⟩ := lines_read (sink_table full tb0) h1 n (Cont.empty true) [] e a lg (by omega) trivial
    ((Cont.good_iff _).2 ⟨closed_PW.empty, by intro e he; cases he⟩) DotBody.empty (nest_apart hn)
  rw [htb0] at r1
  simp only [List.nil_append] at r2
  have hread := r2.read hn ((Cont.good_iff _).1 r5).1.wf
  rw [r1]
  have ht := lines_tail h1
  obtain ⟨m, rfl⟩ : ∃ m, n1 = m + 1 := ⟨n1 - 1, by omega⟩
  rcases ht.1 with rfl | ⟨r, rfl⟩
  · rcases subs_bracket h2 with ⟨h0, hl0⟩ | ⟨r, h0⟩
    · subst h0 hl0
      refine ⟨c1, e1, lg1, ?_, by simpa using hread, r5⟩
      rw [rb' rfl]
      rw [tableLoop, getSt_bind, if_pos (by rfl)]; rfl
    · cases h0
  · rw [tableLoop, getSt_bind, if_neg (by simp [St.atEnd]), Tomlkit.P.bind_def, parseItem_bracket rb]
    dsimp only
    rw [getSt_bind, if_pos (by rfl)]
    obtain ⟨n2, c2, e2, lg2, q1, q2, q3, q4⟩ := ih Tbl _ (some full) (tsink_child full tb0) hf m c1 [] l1 bb a lg1
      (by simp at r3 hlen ⊢; omega) rfl (.here hread) r5 hd (by simpa using hs) ha
    rw [q1]
    have hl2 := txt_length h2
    refine ⟨c2, e2, lg2, childLoop_stops hs hf n2 (by simp at r3 hlen q4 hl2 ⊢; omega) _ _ _ _, ?_, q3⟩
    cases q2 with
    | here h => exact h

theorem key_not_after {l l0 : List PyPair} {k : Str} {w : PyVal} (hk : k ∉ l.map PyPair.key)
    (hd : ∀ x ∈ (PyPair.mk k w :: l).map PyPair.key, x ∉ l0.map PyPair.key) : ∀ x ∈ l.map PyPair.key, x ∉ (l0 ++ [PyPair.mk k w]).map PyPair.key := by
  intro x hx hx0
  rw [List.map_append, List.mem_append] at hx0
  rcases hx0 with h0 | h0
  · exact hd x (by simp [hx]) h0
  · simp only [List.map_cons, List.map_nil, List.mem_singleton, PyPair.key_mk] at h0
    subst h0; exact hk hx

theorem not_empty_head {isAot : Bool} {x : Str} : headOpen isAot ++ x ≠ [] := by cases isAot <;> simp [headOpen]

theorem msubs_none {av : Option Str} {p q : List Str} {tail : Str} : MSubs av p q tail tail [] := by
  intro α L parent hL hp n c fr l0 e a lg hlen hfr hsp hg hd hs ha
  exact ⟨n, c, e, lg, rfl, by simpa using hsp, hg, Nat.le_refl _⟩

theorem msubs_table {av : Option Str} {p q : List Str} {k H b cm nl t0 t1 tail : Str} {d l : List PyPair} (hH : HeadReads H (p ++ q ++ [k]))
    (hb : Spaces b) (hc : Cmt cm) (hn : Eol nl t0) (ht : Txt .tab av (p ++ q ++ [k]) [] t0 t1 (.dict d))
    (h1 : MTab av (p ++ q ++ [k]) t0 t1 d) (h2 : Txt .subs av p q t1 tail (.dict l)) (ih2 : MSubs av p q t1 tail l) (hk : k ∉ l.map PyPair.key) :
    MSubs av p q (headOpen false ++ (H ++ (headClose false ++ (b ++ (cm ++ (nl ++ t0)))))) tail (.mk k (.dict d) :: l) := by
  intro α L parent hL hp n c fr l0 e a lg hlen hfr hsp hg hd hs ha
  have hk0 : k ∉ l0.map PyPair.key := hd k (by simp)
  obtain ⟨n1, c1, e1, lg1, r1, r2, r3, r4⟩ := step_piece (P := (ReadCont · l0)) (P' := (ReadCont · (l0 ++ [.mk k (.dict d)]))) hL hp hH hb hc hn
    false (fun h => by cases h) h1 (subs_past h2 hs hk).stops (fun c h hg => readCont_deepCopy h hg) reind_read (fun tb nm h => leafStep_new hk0 h rfl)
    n e a lg hlen hfr hsp hg ha
  have hl3 := head_length hH false b cm nl t0
  have hl1 := txt_length ht
  obtain ⟨n2, c2, e2, lg2, q1, q2, q3, q4⟩ := ih2 α L parent hL hp n1 c1 fr _ e1 a lg1 (by omega) hfr r2 r3 (key_not_after hk hd) hs ha
  exact ⟨n2, c2, e2, lg2, r1.trans q1, by simpa using q2, q3, by omega⟩

theorem msubs_super {av : Option Str} {p q : List Str} {k text t1 tail : Str} {d l : List PyPair}
    (h1 : Txt .subs av p (q ++ [k]) text t1 (.dict d)) (ih1 : MSubs av p (q ++ [k]) text t1 d) (hne : d ≠ [])
    (h2 : Txt .subs av p q t1 tail (.dict l)) (ih2 : MSubs av p q t1 tail l) (hk : k ∉ l.map PyPair.key) :
    MSubs av p q text tail (.mk k (.dict d) :: l) := by
  intro α L parent hL hp n c fr l0 e a lg hlen hfr hsp hg hd hs ha
  have hk0 : k ∉ l0.map PyPair.key := hd k (by simp)
  obtain ⟨n1, c1, e1, lg1, r1, r2, r3, r4⟩ := ih1 α L parent hL hp n c (fr ++ [(k, l0)]) [] e a lg hlen (by simp [hfr]) (hsp.open hk0) hg
    (by simp) (by rw [← List.append_assoc]; exact (subs_past h2 hs hk).stops) ha
  rw [List.nil_append] at r2
  have hl1 := txt_length h1
  obtain ⟨n2, c2, e2, lg2, q1, q2, q3, q4⟩ := ih2 α L parent hL hp n1 c1 fr _ e1 a lg1 (by omega) hfr (Spine.close hne r2) r3
    (key_not_after hk hd) hs ha
  exact ⟨n2, c2, e2, lg2, r1.trans q1, by simpa using q2, q3, by omega⟩

theorem msubs_more {av : Option Str} {p q : List Str} {k H b cm nl t0 t1 t2 tail : Str} {d l : List PyPair} {ls : List PyVal}
    (hH : HeadReads H (p ++ q ++ [k])) (hb : Spaces b) (hc : Cmt cm) (hn : Eol nl t0) (hq0 : q ≠ [])
    (hq : ∀ y, q.head? = some y → av ≠ some y) (ht : Txt .tab av (p ++ q ++ [k]) [] t0 t1 (.dict d))
    (h1 : MTab av (p ++ q ++ [k]) t0 t1 d) (h2 : Txt .elems av (p ++ q ++ [k]) [] t1 t2 (.list ls))
    (ih2 : MMore av (p ++ q ++ [k]) t1 t2 ls) (h3 : Txt .subs av p q t2 tail (.dict l)) (ih3 : MSubs av p q t2 tail l) (hk : k ∉ l.map PyPair.key) :
    MSubs av p q (headOpen true ++ (H ++ (headClose true ++ (b ++ (cm ++ (nl ++ t0)))))) tail (.mk k (.list (.dict d :: ls)) :: l) := by
  intro α L parent hL hp n c fr l0 e a lg hlen hfr hsp hg hd hs ha
  have hk0 : k ∉ l0.map PyPair.key := hd k (by simp)
  have hpast := subs_past h3 hs hk
  obtain ⟨n1, c1, e1, lg1, r1, r2, r3, r4⟩ := step_piece (P := (ReadCont · l0)) (P' := AotCont l0 k [.dict d]) hL hp hH hb hc hn
    true (fun _ => ⟨hq0, hq⟩) h1 (elems_stops h2 hpast) (fun c h hg => readCont_deepCopy h hg)
    reind_aot (fun tb nm h => leafStep_aotNew hk0 (mkAoT_means (meansAll_one h) true)) n e a lg hlen hfr hsp hg ha
  have hl3 := head_length hH true b cm nl t0
  have hl1 := txt_length ht
  have hl2 := txt_length h2
  obtain ⟨n2, c2, e2, lg2, q1, q2, q3, q4⟩ := ih2 p q k α L parent rfl hq0 hq hL hp n1 c1 fr l0 [.dict d] e1 a lg1 (by omega) hfr r2 r3 hpast ha
  obtain ⟨n3, c3, e3, lg3, u1, u2, u3, u4⟩ := ih3 α L parent hL hp n2 c2 fr (l0 ++ [.mk k (.list (.dict d :: ls))]) e2 a lg2 (by omega) hfr (q2.mono fun c h => h.read) q3
    (key_not_after hk hd) hs ha
  exact ⟨n3, c3, e3, lg3, (r1.trans q1).trans u1, by simpa using u2, u3, by omega⟩

theorem mmore_nil {av : Option Str} {P : List Str} {tail : Str} : MMore av P tail tail [] := by
  intro p q k α L parent hP hq0 hq hL hp n c fr l a0 e a lg hlen hfr hsp hg hs ha
  exact ⟨n, c, e, lg, rfl, by simpa using hsp, hg, Nat.le_refl _⟩

theorem mmore_cons {av : Option Str} {P : List Str} {H b cm nl t0 t1 tail : Str} {d : List PyPair} {ls : List PyVal}
    (hH : HeadReads H P) (hb : Spaces b) (hc : Cmt cm) (hn : Eol nl t0) (ht : Txt .tab av P [] t0 t1 (.dict d)) (h1 : MTab av P t0 t1 d)
    (h2 : Txt .elems av P [] t1 tail (.list ls)) (ih2 : MMore av P t1 tail ls) :
    MMore av P (headOpen true ++ (H ++ (headClose true ++ (b ++ (cm ++ (nl ++ t0)))))) tail (.dict d :: ls) := by
  intro p q k α L parent hP hq0 hq hL hp n c fr l a0 e a lg hlen hfr hsp hg hs ha
  subst hP
  obtain ⟨n1, c1, e1, lg1, r1, r2, r3, r4⟩ := step_piece (P := AotCont l k a0) (P' := AotCont l k (a0 ++ [.dict d])) hL hp hH hb hc hn
    true (fun _ => ⟨hq0, hq⟩) h1 (elems_stops h2 hs) (fun c h hg => AotCont.copy c h hg)
    reind_aot (fun tb nm h => leafStep_aotMore (mkAoT_means (meansAll_one h) true)) n e a lg hlen hfr hsp hg ha
  have hl3 := head_length hH true b cm nl t0
  have hl1 := txt_length ht
  obtain ⟨n2, c2, e2, lg2, q1, q2, q3, q4⟩ := ih2 p q k α L parent rfl hq0 hq hL hp n1 c1 fr l _ e1 a lg1 (by omega) hfr r2 r3 hs ha
  exact ⟨n2, c2, e2, lg2, r1.trans q1, by simpa using q2, q3, by omega⟩

theorem melems_nil {av : Option Str} {P : List Str} {tail : Str} : MElems av P tail tail [] := by
  intro n name ts e a lg hname hlen hlast ha hs
  obtain ⟨m, rfl⟩ : ∃ m, n = m + 1 := ⟨n - 1, by omega⟩
  refine ⟨[], e, lg, ?_, by unfold MeansAll; rfl, by simp⟩
  rw [List.append_nil]
  rcases hs with rfl | ⟨b, q, h1, h2⟩
  · rw [aotLoop, getSt_bind, if_pos (by rfl)]; rfl
  · obtain ⟨r, rfl⟩ := h1.cons
    obtain ⟨K, hpk, hK⟩ := peek_reads h1 e a lg
    have : Key.eqv K name = false := by
      rw [eqv_path hK hname]
      apply decide_eq_false
      rintro rfl
      exact h2 (by simp)
    rw [aotLoop, getSt_bind, if_neg (by simp [St.atEnd]), Tomlkit.P.bind_def, hpk]
    dsimp only
    rw [this, Bool.and_false, if_neg (by simp)]
    rfl

/-- an element read in the loop of its array: it is a table -/
theorem finish_elem (n : Nat) (h : Header) (tb : Tbl) (st : St) {name : Key} {P : List Str} (hh : KeyPath h.key P) (hname : KeyPath name P)
    (hlast : st.aot.getLast? = some name) : finishTable n h [] tb st = .ok (h.key, .table tb) st := by
  unfold finishTable
  rw [getSt_bind]
  dsimp only
  have hc : ¬ ((h.isAot && (match st.aot.getLast? with | some top => !Key.eqv h.key top | none => true)) = true) := by
    rw [hlast]
    dsimp only
    rw [eqv_path hh hname]
    simp
  refine (congrFun (if_neg hc) st).trans ?_
  rfl

theorem melems_cons {av : Option Str} {P : List Str} {H b cm nl t0 t1 tail : Str} {d : List PyPair} {ls : List PyVal}
    (hH : HeadReads H P) (hb : Spaces b) (hc : Cmt cm) (hn : Eol nl t0) (ht : Txt .tab av P [] t0 t1 (.dict d)) (h1 : MTab av P t0 t1 d)
    (h2 : Txt .elems av P [] t1 tail (.list ls)) (ih2 : MElems av P t1 tail ls) :
    MElems av P (headOpen true ++ (H ++ (headClose true ++ (b ++ (cm ++ (nl ++ t0)))))) tail (.dict d :: ls) := by
  intro n name ts e a lg hname hlen hlast ha hs
  have hl3 := head_length hH true b cm nl t0
  have hl1 := txt_length ht
  obtain ⟨m, rfl⟩ : ∃ m, n = m + 2 := ⟨n - 2, by omega⟩
  obtain ⟨h, parts, nm, e1, lg1, g2, g3, g4, g5, g6, g7⟩ := parseTable_open (parent := some name) (r := []) hname
    (by rw [List.append_nil]; exact hH) hb hc hn true e a lg m
  rw [List.append_nil] at g3
  have hparts : parts = [] := by simpa using g4
  subst hparts
  obtain ⟨c1, e2, lg2, k1, k3, k4⟩ := h1 m h.key (h.leaf nm) e1 a lg1 g3 (by omega) (elems_stops h2 hs) ha rfl
  have hT := g7 c1 e2 t1 lg2 d k1 k3
  rw [finish_elem m h _ ⟨t1, e2, a, lg2⟩ g3 hname hlast] at hT
  obtain ⟨ts', e3, lg3, q1, q3, q4⟩ := ih2 (m + 1) name (ts ++ [(h.leaf nm).setCont c1]) e2 a lg2 hname (by omega) hlast ha hs
  refine ⟨(h.leaf nm).setCont c1 :: ts', e3, lg3, ?_, ?_, ?_⟩
  · obtain ⟨K, hpk, hK⟩ := peek_reads (peeks_head true hH (b ++ (cm ++ (nl ++ t0)))) e a lg
    rw [aotLoop, getSt_bind, if_neg (by simp [St.atEnd, headOpen]), Tomlkit.P.bind_def, hpk]
    dsimp only
    rw [eqv_path hK hname]
    simp only [decide_true, Bool.and_self, if_true]
    rw [Tomlkit.P.bind_def, hT]
    dsimp only
    rw [q1]
    simp
  · unfold MeansAll
    exact ⟨_, _, rfl, means_super (by rw [setCont_cont]; exact k3), q3⟩
  · intro t ht'
    rcases List.mem_cons.1 ht' with rfl | ht'
    · exact leaf_setCont_good k4
    · exact q4 t ht'

theorem finish_aot (m : Nat) (h : Header) (sk : SKey) (tb : Tbl) {t1 e : Str} {a : List Key} {lg : List Loss}
    (hA : h.isAot = true) (htop : (match a.getLast? with | some top => !Key.eqv h.key top | none => true) = true) {ts : List Tbl} {t2 e' : Str}
    {lg' : List Loss} (hl : aotLoop m h.key [tb] ⟨t1, e, a ++ [h.key], lg⟩ = .ok ts ⟨t2, e', a ++ [h.key], lg'⟩) :
    finishTable (m + 1) h [sk] tb ⟨t1, e, a, lg⟩ = .ok (.single sk, mkAoT ts none true) ⟨t2, e', a, lg'⟩ := by
  unfold finishTable
  rw [getSt_bind]
  dsimp only
  rw [if_pos (by rw [hA, Bool.true_and]; exact htop)]
  have : parseAot (m + 1) tb h.key ⟨t1, e, a, lg⟩ = .ok (mkAoT ts none true) ⟨t2, e', a, lg'⟩ := by
    rw [parseAot]
    show (aotLoop m h.key [tb] >>= fun ts => ((fun st => .ok () { st with aot := st.aot.dropLast } : P Unit) >>= fun _ => pure (mkAoT ts none true)) : P Item)
      ⟨t1, e, a ++ [h.key], lg⟩ = _
    refine (bind_step hl).trans ?_
    show Res.ok (mkAoT ts none true) ⟨t2, e', (a ++ [h.key]).dropLast, lg'⟩ = _
    rw [List.dropLast_concat]
  rw [Tomlkit.P.bind_def, this]
  rfl

theorem msubs_aot {av : Option Str} {p : List Str} {k H b cm nl t0 t1 t2 tail : Str} {d l : List PyPair} {ls : List PyVal}
    (hH : HeadReads H (p ++ [] ++ [k])) (hb : Spaces b) (hc : Cmt cm) (hn : Eol nl t0) (ht : Txt .tab av (p ++ [] ++ [k]) [] t0 t1 (.dict d))
    (h1 : MTab av (p ++ [] ++ [k]) t0 t1 d) (h2 : Txt .elems (if p ++ [] = [] then some k else av) (p ++ [] ++ [k]) [] t1 t2 (.list ls))
    (ih2 : MElems (if p ++ [] = [] then some k else av) (p ++ [] ++ [k]) t1 t2 ls) (h3 : Txt .subs av p [] t2 tail (.dict l))
    (ih3 : MSubs av p [] t2 tail l) (hk : k ∉ l.map PyPair.key) :
    MSubs av p [] (headOpen true ++ (H ++ (headClose true ++ (b ++ (cm ++ (nl ++ t0)))))) tail (.mk k (.list (.dict d :: ls)) :: l) := by
  intro α L parent hL hp n c fr l0 e a lg hlen hfr hsp hg hd hs ha
  have hfr0 : fr = [] := by simpa using hfr
  subst hfr0
  have hk0 : k ∉ l0.map PyPair.key := hd k (by simp)
  have hpast := subs_past h3 hs hk
  have hstop := elems_stops h2 hpast
  simp only [List.append_nil] at hH ht h1 h2 ih2 hpast hstop
  have hl3 := head_length hH true b cm nl t0
  have hl1 := txt_length ht
  have hl2 := txt_length h2
  obtain ⟨m, rfl⟩ : ∃ m, n = m + 3 := ⟨n - 3, by omega⟩
  obtain ⟨h, parts, nm, e1, lg1, g2, g3, g4, g5, g6, g7⟩ := parseTable_open hp hH hb hc hn true e a lg (m + 1)
  obtain ⟨c1, e2, lg2, k1, k3, k4⟩ := h1 (m + 1) h.key (h.leaf nm) e1 a lg1 g3 (by omega) hstop (ha.mono (by simp)) rfl
  have hT := g7 c1 e2 t1 lg2 d k1 k3
  obtain ⟨sk, rfl, hsk⟩ : ∃ sk, parts = [sk] ∧ sk.key = k := by
    rcases parts with _ | ⟨sk, _ | _⟩
    · cases g4
    · exact ⟨sk, rfl, by simpa using g4⟩
    · cases g4
  have hkl : h.key.parts.length = p.length + 1 := by
    have := congrArg List.length g3.keys
    simpa using this
  have hstack : StackOk (if p = [] then some k else av) (p ++ [k]).length (a ++ [h.key]) := by
    constructor
    · intro K hK
      rcases List.mem_append.1 hK with hK | hK
      · have := ha.1 K hK
        simp; omega
      · rw [List.mem_singleton] at hK
        subst hK
        simp; omega
    · intro s hs'
      by_cases hp0 : p = []
      · rw [if_pos hp0]
        rcases List.mem_append.1 hs' with hK | hK
        · have := ha.1 _ hK
          rw [hp0] at this
          simp [Key.parts] at this
        · rw [List.mem_singleton] at hK
          have hkeys := g3.keys
          rw [← hK, hp0] at hkeys
          simp only [Key.parts, List.map_cons, List.map_nil, List.nil_append, List.cons.injEq, and_true] at hkeys
          rw [hkeys]
      · rw [if_neg hp0]
        rcases List.mem_append.1 hs' with hK | hK
        · exact ha.2 s hK
        · rw [List.mem_singleton] at hK
          rw [← hK] at hkl
          simp only [Key.parts, List.length_cons, List.length_nil] at hkl
          exact absurd (List.length_eq_zero_iff.1 (by omega)) hp0
  obtain ⟨ts', e3, lg3, q1, q3, q4⟩ := ih2 m h.key [(h.leaf nm).setCont c1] e2 (a ++ [h.key]) lg2 g3 (by omega) (by simp) hstack hpast
  rw [finish_aot m h sk _ g2 (ha.top (by omega)) q1] at hT
  have hall : MeansAll (.dict d :: ls) (((h.leaf nm).setCont c1 :: ts').map Item.table) := by
    unfold MeansAll
    exact ⟨_, _, rfl, means_super (by rw [setCont_cont]; exact k3), q3⟩
  have hS : LeafStep (ReadCont · l0) (ReadCont · (l0 ++ [.mk k (.list (.dict d :: ls))])) k (mkAoT ([(h.leaf nm).setCont c1] ++ ts') none true) :=
    leafStep_new hk0 (means_aot (mkAoT_means hall true) _ _ _) rfl
  have hgl : (mkAoT ([(h.leaf nm).setCont c1] ++ ts') none true).Good PW := by
    refine mkAoT_good ?_
    intro t ht'
    rcases List.mem_cons.1 ht' with rfl | ht'
    · exact leaf_setCont_good k4
    · exact q4 t ht'
  have hap := fun b' => append_piece (P := (ReadCont · l0)) (fun c h hg => readCont_deepCopy h hg) hS reind_read hsp hg hgl (.leaf) (by rw [hsk]; rfl) (g5 sk (by simp))
    (fun h => absurd rfl h) b'
  obtain ⟨K, hpk, hK⟩ := peek_reads (peeks_head true hH (b ++ (cm ++ (nl ++ t0)))) e a lg
  obtain ⟨c', l', r1, r2, r3⟩ := hL (fun c' => Spine (ReadCont · (l0 ++ [.mk k (.list (.dict d :: ls))])) c' [] ∧ c'.Good PW) (m + 2) c _ _ sk _ true K
    not_empty_head hpk
    (fun full hf => by
      subst hf
      rw [isChild_path hp hK]
      simp)
    hT (fun tb htb => by cases htb) hap
  obtain ⟨n3, c3, e4, lg4, u1, u2, u3, u4⟩ := ih3 α L parent hL hp (m + 2) c' [] _ e3 a l' (by omega) hfr r2 r3
    (key_not_after hk hd) hs ha
  exact ⟨n3, c3, e4, lg4, r1.trans u1, by simpa using u2, u3, by omega⟩

theorem txt_motive {kd : Kind} {av : Option Str} {p q : List Str} {text tail : Str} {w : PyVal} (h : Txt kd av p q text tail w) :
    Motive kd av p q text tail w := by
  induction h with
  | tab h1 hn h2 hd ih => exact mtab_case h1 hn h2 hd ih
  | none => exact msubs_none
  | table hH hb hc hn h1 h2 hk ih1 ih2 => exact msubs_table hH hb hc hn h1 ih1 h2 ih2 hk
  | super h1 hne h2 hk ih1 ih2 => exact msubs_super h1 ih1 hne h2 ih2 hk
  | @aot av p q k H b cm nl t0 t1 t2 tail d l ls hH hb hc hn hq h1 h2 h3 hk ih1 ih2 ih3 =>
    by_cases hq0 : q = []
    · subst hq0
      exact msubs_aot hH hb hc hn h1 ih1 h2 ih2.1 h3 ih3 hk
    · rw [if_neg (by simp [hq0])] at h2 ih2
      exact msubs_more hH hb hc hn hq0 hq h1 ih1 h2 ih2.2 h3 ih3 hk
  | nil => exact ⟨melems_nil, mmore_nil⟩
  | cons hH hb hc hn h1 h2 ih1 ih2 => exact ⟨melems_cons hH hb hc hn h1 ih1 h2 ih2.1, mmore_cons hH hb hc hn h1 ih1 h2 ih2.2⟩

end Tomlkit
