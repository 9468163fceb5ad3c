import Verif.Spec.Calm
import Verif.Proofs.CalmHead
/-!
# Checking that a text is ordinary
-/
namespace Tomlkit
open _root_.Spec Tomlkit.Spec

/-- all suffixes -/
def sufs : Str → List Str
  | [] => [[]]
  | a :: l => (a :: l) :: sufs l

theorem mem_sufs {T x : Str} (h : x <:+ T) : x ∈ sufs T := by
  obtain ⟨p, rfl⟩ := h
  induction p with
  | nil => cases x <;> simp [sufs]
  | cons a p ih => simp [sufs, ih]

/-- all prefixes -/
def pres : Str → List Str
  | [] => [[]]
  | a :: l => [] :: (pres l).map (a :: ·)

theorem mem_pres (x y : Str) : x ∈ pres (x ++ y) := by
  induction x with
  | nil => cases y <;> simp [pres]
  | cons a x ih => simp [pres, ih]

/-- `PadDate` with what follows restricted by `p` -/
def padFree (p : Str → Bool) (T : Str) : Bool :=
  (sufs T).all fun x => (pres x).all fun d =>
    match parseRfc3339 d with
    | .error _ => true
    | .ok _ =>
      let y := x.drop d.length
      let q := fun c => isUniSpace c && !isDateEnd c
      let r := y.dropWhile q
      (y.takeWhile q).isEmpty || p r || (match r with | [] => false | c :: _ => !isDateEnd c)

theorem span_of {q : Chr → Bool} {ws r : Str} (h : ∀ c ∈ ws, q c = true) (hr : ∀ c s, r = c :: s → q c = false) :
    (ws ++ r).takeWhile q = ws ∧ (ws ++ r).dropWhile q = r := by
  rw [List.takeWhile_append_of_pos h, List.dropWhile_append_of_pos h]
  cases r with
  | nil => simp
  | cons c s => simp [hr c s rfl]

theorem padFree_sound {p : Str → Bool} {T : Str} (h : padFree p T = true) {d ws r : Str} (hp : PadDate T d ws r) : p r = true := by
  unfold padFree at h
  rw [List.all_eq_true] at h
  have h1 := h _ (mem_sufs hp.sub)
  rw [List.all_eq_true] at h1
  have h2 := h1 _ (mem_pres d (ws ++ r))
  obtain ⟨x, hx⟩ := hp.date
  rw [hx] at h2
  dsimp only at h2
  rw [List.drop_left] at h2
  have hq : ∀ c ∈ ws, (isUniSpace c && !isDateEnd c) = true := by
    intro c hc
    obtain ⟨h3, h4⟩ := hp.blank c hc
    rw [h3, h4]; rfl
  obtain ⟨h3, h4⟩ := span_of (q := fun c => isUniSpace c && !isDateEnd c) hq (r := r) (by
    intro c s hcs
    rw [hp.stop c s hcs]; simp)
  rw [h3, h4] at h2
  rw [Bool.or_eq_true, Bool.or_eq_true] at h2
  rcases h2 with (h2 | h2) | h2
  · rw [List.isEmpty_iff] at h2
    exact absurd h2 hp.ne
  · exact h2
  · rcases r with _ | ⟨c, s⟩
    · cases h2
    · have := hp.stop c s rfl
      simp [this] at h2

/-- `NoArray` -/
def noArrayCheck (T : Str) : Bool := (sufs T).all fun x =>
  match x with
  | 61 :: y => (y.dropWhile isSpaces).head? != some 91
  | _ => true

theorem noArrayCheck_sound {T : Str} (h : noArrayCheck T = true) : NoArray T := by
  rintro ws hws ⟨p, q, hpq⟩
  unfold noArrayCheck at h
  rw [List.all_eq_true] at h
  have : (((ws ++ [91] ++ q).dropWhile isSpaces).head? != some 91) = true := h (61 :: (ws ++ [91] ++ q)) (mem_sufs ⟨p, by rw [← hpq]; simp⟩)
  rw [List.append_assoc, List.dropWhile_append_of_pos hws] at this
  simp [isSpaces] at this

/-! ### headers -/

/-- a name without escapes: spelling, name, what follows -/
def readName (w : Str) : Option (Str × Str × Str) :=
  match w with
  | 34 :: r =>
    let o := r.takeWhile fun c => !(isCtrl c && c != 9) && c != 34 && c != 92
    match r.drop o.length with
    | 34 :: r' => some (34 :: (o ++ [34]), o, r')
    | _ => none
  | 39 :: r =>
    let o := r.takeWhile fun c => !(isCtrl c && c != 9) && c != 39
    match r.drop o.length with
    | 39 :: r' => some (39 :: (o ++ [39]), o, r')
    | _ => none
  | w =>
    let o := w.takeWhile isBareChar
    if o.isEmpty then none else some (o, o, w.drop o.length)

theorem takeWhile_drop (p : Chr → Bool) (r : Str) : r.takeWhile p ++ r.drop (r.takeWhile p).length = r := by
  have := List.prefix_iff_eq_append.1 (List.takeWhile_prefix p (l := r))
  exact this

theorem takeWhile_all {p : Chr → Bool} {r : Str} : ∀ c ∈ r.takeWhile p, p c = true := by
  have := List.all_takeWhile (l := r) (p := p)
  rwa [List.all_eq_true] at this

theorem plain_basic {o : Str} (h : ∀ c ∈ o, (!(isCtrl c && c != 9) && c != 34 && c != 92) = true) : BasicBody HexEscape o o := by
  induction o with
  | nil => exact .nil
  | cons c o ih =>
    have := h c (by simp)
    simp only [Bool.and_eq_true, Bool.not_eq_true', bne_iff_ne] at this
    obtain ⟨⟨h1, h2⟩, h3⟩ := this
    refine .char c o o ?_ h2 h3 (ih fun x hx => h x (by simp [hx]))
    rintro ⟨g1, g2⟩
    have : isCtrl c = true := by unfold isCtrl; unfold Control at g1; simp; omega
    rw [this] at h1
    simp [g2] at h1

theorem readName_sound {w s k r : Str} (h : readName w = some (s, k, r)) : KeyText s k ∧ w = s ++ r := by
  unfold readName at h
  split at h
  · rename_i r0
    dsimp only at h
    have hw := takeWhile_drop (fun c => !(isCtrl c && c != 9) && c != 34 && c != 92) r0
    have ha := takeWhile_all (p := fun c => !(isCtrl c && c != 9) && c != 34 && c != 92) (r := r0)
    revert h hw ha
    generalize r0.takeWhile (fun c => !(isCtrl c && c != 9) && c != 34 && c != 92) = o
    intro h hw ha
    split at h
    · rename_i r' hd
      cases h
      refine ⟨.basic _ _ (plain_basic ha), ?_⟩
      rw [hd] at hw
      rw [← hw]; simp
    · cases h
  · rename_i r0
    dsimp only at h
    have hw := takeWhile_drop (fun c => !(isCtrl c && c != 9) && c != 39) r0
    have ha := takeWhile_all (p := fun c => !(isCtrl c && c != 9) && c != 39) (r := r0)
    revert h hw ha
    generalize r0.takeWhile (fun c => !(isCtrl c && c != 9) && c != 39) = o
    intro h hw ha
    split at h
    · rename_i r' hd
      cases h
      refine ⟨.literal _ ?_, ?_⟩
      · intro c hc
        have := ha c hc
        simp only [Bool.and_eq_true, Bool.not_eq_true', bne_iff_ne] at this
        refine ⟨?_, this.2⟩
        rintro ⟨g1, g2⟩
        have h0 : isCtrl c = true := by unfold isCtrl; unfold Control at g1; simp; omega
        have := this.1
        rw [h0] at this
        simp [g2] at this
      · rw [hd] at hw
        rw [← hw]; simp
    · cases h
  · dsimp only at h
    split at h
    · cases h
    · rename_i hne
      cases h
      refine ⟨.bare _ (by simpa using hne) ?_, (takeWhile_drop _ _).symm⟩
      intro c hc
      have := takeWhile_all c hc
      unfold isBareChar isAsciiLetter isDigit at this
      unfold BareChar
      simp at this
      omega

/-- names joined by dots, up to a closing bracket -/
def readPath : Nat → Str → Option (Str × List (Str × Str) × Str)
  | 0, _ => none
  | n + 1, w =>
    match readName (w.dropWhile isSpaces) with
    | none => none
    | some (s, k, r) =>
      let t := w.takeWhile isSpaces ++ (s ++ r.takeWhile isSpaces)
      match r.dropWhile isSpaces with
      | 46 :: r2 =>
        match readPath n r2 with
        | none => none
        | some (H, P, r3) => some (t ++ 46 :: H, (t, k) :: P, r3)
      | 93 :: r2 => some (t, [(t, k)], 93 :: r2)
      | _ => none

theorem blanks_of (w : Str) : Blanks (w.takeWhile isSpaces) := by
  intro c hc
  have := takeWhile_all c hc
  unfold isSpaces at this
  simp at this
  omega

theorem readPath_sound : ∀ {n : Nat} {w H : Str} {P : List (Str × Str)} {r : Str}, readPath n w = some (H, P, r) →
    PathText H P ∧ w = H ++ r
  | 0, _, _, _, _, h => by cases h
  | n + 1, w, H, P, r, h => by
    unfold readPath at h
    split at h
    · cases h
    · rename_i s k r1 hn
      obtain ⟨hk, hw⟩ := readName_sound hn
      have hw0 := List.takeWhile_append_dropWhile (p := isSpaces) (l := w)
      have hr0 := List.takeWhile_append_dropWhile (p := isSpaces) (l := r1)
      dsimp only at h
      split at h
      · rename_i r2 hd
        rw [hd] at hr0
        split at h
        · cases h
        · rename_i H2 P2 r3 hp
          cases h
          obtain ⟨g1, g2⟩ := readPath_sound hp
          refine ⟨.more _ _ _ _ _ _ (blanks_of _) hk (blanks_of _) g1, ?_⟩
          conv => lhs; rw [← hw0, hw, ← hr0, g2]
          simp
      · rename_i r2 hd
        rw [hd] at hr0
        cases h
        refine ⟨.one _ _ _ _ (blanks_of _) hk (blanks_of _), ?_⟩
        conv => lhs; rw [← hw0, hw, ← hr0]
        simp
      · cases h

/-- the header after `[` -/
def readHead (w : Str) : Option (Bool × List (Str × Str)) :=
  match w with
  | 91 :: w' =>
    match readPath w'.length w' with
    | some (_, P, 93 :: 93 :: _) => some (true, P)
    | _ => none
  | w =>
    match readPath w.length w with
    | some (_, P, 93 :: _) => some (false, P)
    | _ => none

theorem readHead_sound {w : Str} {aot : Bool} {P : List (Str × Str)} (h : readHead w = some (aot, P)) : HeadText w aot P := by
  unfold readHead at h
  split at h
  · split at h
    · rename_i hp
      cases h
      obtain ⟨g1, g2⟩ := readPath_sound hp
      exact ⟨_, _, g1, by rw [if_pos rfl, g2]⟩
    · cases h
  · split at h
    · rename_i hp
      cases h
      obtain ⟨g1, g2⟩ := readPath_sound hp
      exact ⟨_, _, g1, by rw [if_neg (by decide), g2]⟩
    · cases h

def noNameCheck (w : Str) : Bool :=
  let y := w.dropWhile isSpaces
  (match y with | c :: _ => [10, 13, 35, 44, 91, 93, 123].contains c | [] => false) ||
  (match readName y with | some (_, _, r) => (r.dropWhile isSpaces).head? == some 44 | none => false)

theorem noNameCheck_sound {w : Str} (h : noNameCheck w = true) : NoName w := by
  unfold noNameCheck at h
  dsimp only at h
  have hw0 := List.takeWhile_append_dropWhile (p := isSpaces) (l := w)
  rw [Bool.or_eq_true] at h
  rcases h with h | h
  · left
    split at h
    · rename_i c r hd
      rw [hd] at hw0
      exact ⟨_, c, r, blanks_of w, hw0.symm, by simpa using h⟩
    · cases h
  · right
    split at h
    · rename_i s k r hn
      obtain ⟨hk, hw⟩ := readName_sound hn
      have hr0 := List.takeWhile_append_dropWhile (p := isSpaces) (l := r)
      obtain ⟨r2, hd⟩ : ∃ r2, r.dropWhile isSpaces = 44 :: r2 := by
        rcases hd : r.dropWhile isSpaces with _ | ⟨c, r2⟩ <;> rw [hd] at h
        · cases h
        · simp at h; exact ⟨r2, by rw [h]⟩
      rw [hd] at hr0
      refine ⟨_, s, k, _, r2, blanks_of w, hk, blanks_of r, ?_⟩
      conv => lhs; rw [← hw0, hw, ← hr0]
    · cases h

def noHeadCheck (w : Str) : Bool :=
  match w with
  | 91 :: w' => noNameCheck w'
  | w => noNameCheck w

theorem noHeadCheck_sound {w : Str} (h : noHeadCheck w = true) : NoHead w := by
  unfold noHeadCheck at h
  split at h
  · exact .inr ⟨_, rfl, noNameCheck_sound h⟩
  · rename_i hne
    refine .inl ⟨?_, noNameCheck_sound h⟩
    intro h91
    rcases w with _ | ⟨c, w⟩
    · cases h91
    · simp at h91
      subst h91
      exact hne _ rfl

/-- all ways of cutting a text in two -/
def cuts : Str → List (Str × Str)
  | [] => [([], [])]
  | a :: l => ([], a :: l) :: (cuts l).map fun x => (a :: x.1, x.2)

theorem mem_cuts (x y : Str) : (x, y) ∈ cuts (x ++ y) := by
  induction x with
  | nil => cases y <;> simp [cuts]
  | cons a x ih => simp [cuts]; exact ih

def lineStartCheck (pre : Str) : Bool := pre.isEmpty || pre.getLast? == some 10

theorem lineStart_check {pre : Str} (h : LineStart pre) : lineStartCheck pre = true := by
  unfold lineStartCheck
  rcases h with rfl | ⟨p, rfl⟩
  · rfl
  · simp

/-- the lines that begin with a bracket: where they begin, their indentation, what follows the bracket -/
def brackets (T : Str) : List (Nat × Str × Str) := (cuts T).filterMap fun x =>
  if lineStartCheck x.1 then
    match x.2.dropWhile isSpaces with
    | 91 :: w => some (x.1.length, x.2.takeWhile isSpaces, w)
    | _ => none
  else none

theorem mem_brackets {T pre ind w : Str} (hT : T = pre ++ (ind ++ 91 :: w)) (hl : LineStart pre) (hi : ∀ c ∈ ind, isSpaces c = true) :
    (pre.length, ind, w) ∈ brackets T := by
  unfold brackets
  rw [List.mem_filterMap]
  refine ⟨(pre, ind ++ 91 :: w), by rw [hT]; exact mem_cuts _ _, ?_⟩
  have h1 : (ind ++ 91 :: w).takeWhile isSpaces = ind := by
    rw [List.takeWhile_append_of_pos hi]
    have : isSpaces 91 = false := rfl
    simp [this]
  have h2 : (ind ++ 91 :: w).dropWhile isSpaces = 91 :: w := by
    rw [List.dropWhile_append_of_pos hi]; rfl
  dsimp only
  rw [if_pos (lineStart_check hl), h2, h1]
  rfl

/-- what the parser would see as the header after `[` -/
def seenHead (w : Str) : Option (Bool × List (Str × Str)) :=
  let aot := w.head? == some 91
  match headerKey ⟨if aot then w.tail else w, [], [], []⟩ with
  | .ok K s => if s.cur = 93 then some (aot, pairs K) else none
  | .err .. => none

theorem seenHead_complete {w : Str} {aot : Bool} {P : List (Str × Str)} (h : HeadText w aot P) : seenHead w = some (aot, P) := by
  obtain ⟨H, r, hP, hw⟩ := h
  unfold seenHead
  cases aot
  · rw [if_neg (by decide)] at hw
    obtain ⟨c, q, hq, hc⟩ := path_head hP
    have hb : (w.head? == some 91) = false := by
      rw [hw, hq]; simpa using hc
    obtain ⟨K, e', hK, hk⟩ := headerKey_path hP r [] [] []
    dsimp only
    rw [hb, if_neg (by decide), hw, hK]
    dsimp only
    rw [if_pos (by rfl), hk.pairs]
  · rw [if_pos rfl] at hw
    obtain ⟨K, e', hK, hk⟩ := headerKey_path hP (93 :: r) [] [] []
    have hb : (w.head? == some 91) = true := by rw [hw]; rfl
    dsimp only
    rw [hb, if_pos rfl, hw]
    dsimp only [List.tail]
    rw [hK]
    dsimp only
    rw [if_pos (by rfl), hk.pairs]

/-- the headers -/
def headsOf (T : Str) : List (Nat × Bool × List (Str × Str)) := (brackets T).filterMap fun x => (seenHead x.2.2).map fun y => (x.1, y)

theorem mem_headsOf {T : Str} {n : Nat} {aot : Bool} {P : List (Str × Str)} (h : HeaderAt T n aot P) : (n, aot, P) ∈ headsOf T := by
  obtain ⟨pre, ind, w, hT, hn, hl, hi, hw⟩ := h
  unfold headsOf
  rw [List.mem_filterMap]
  refine ⟨_, mem_brackets hT hl hi, ?_⟩
  rw [seenHead_complete hw]
  subst hn; rfl

/-- the condition on headers -/
def headCheck (T : Str) : Bool :=
  let hs := headsOf T
  ((brackets T).all fun x =>
    noHeadCheck x.2.2 ||
    (x.2.2.head? != some 91 && !(x.2.2.takeWhile (· != 10)).contains 46 && !(x.2.2.takeWhile (· != 10)).contains 92 && hs.all fun h => !h.2.1) ||
    match readHead x.2.2 with
    | some (aot, P) => (x.2.1.isEmpty || decide (P.length ≤ 2)) && (!aot || match P with | a :: t => t.dropLast.all fun q => q.2 != a.2 | [] => true)
    | none => false) &&
  (hs.all fun h => hs.all fun h' => !(decide (2 ≤ h.2.2.length) || h.2.1) || h.2.2.all fun q => h'.2.2.all fun q' => q.2 != q'.2 || q.1 == q'.1) &&
  (hs.all fun h1 => hs.all fun h2 => hs.all fun h3 => !decide (h1.1 < h2.1) || !decide (h2.1 < h3.1) ||
    !(h2.2.1 || (h1.2.1 && h3.2.1 && names h1.2.2 == names h3.2.2)) ||
    (pres2 (names h1.2.2)).all fun p => !p.isPrefixOf (names h3.2.2) || p.isPrefixOf (names h2.2.2))
where
  pres2 : List Str → List (List Str)
    | [] => [[]]
    | a :: l => [] :: (pres2 l).map (a :: ·)

theorem mem_pres2 (x y : List Str) : x ∈ headCheck.pres2 (x ++ y) := by
  induction x with
  | nil => cases y <;> simp [headCheck.pres2]
  | cons a x ih => simp [headCheck.pres2, ih]

/-- a text passes the check only if it is ordinary -/
def calmCheck (T : Str) : Bool :=
  ((sufs T).all fun x => match x with | 13 :: y => y.head? == some 10 | _ => true) &&
  (!T.contains 123 || (noArrayCheck T && (sufs T).all fun x => match x with | b :: 44 :: _ => !isSpaces b | _ => true)) &&
  padFree (fun r => r.head? != some 9) T &&
  ((noArrayCheck T && !T.contains 123) || padFree (fun _ => false) T) &&
  headCheck T

theorem calm_of_check {T : Str} (h : calmCheck T = true) : Calm T := by
  unfold calmCheck at h
  simp only [Bool.and_eq_true] at h
  obtain ⟨⟨⟨⟨h1, h2⟩, h3⟩, h4⟩, h5⟩ := h
  refine ⟨⟨?_, ?_, ?_, ?_⟩, ?_, ?_, ?_⟩
  · intro p r hT
    rw [List.all_eq_true] at h1
    have := h1 (13 :: r) (mem_sufs ⟨p, hT.symm⟩)
    rcases r with _ | ⟨c, q⟩
    · cases this
    · simp only [List.head?_cons, beq_iff_eq, Option.some.injEq] at this
      exact ⟨q, by rw [this]⟩
  · rw [Bool.or_eq_true] at h2
    rcases h2 with h2 | h2
    · left; simpa using h2
    · right
      rw [Bool.and_eq_true] at h2
      refine ⟨noArrayCheck_sound h2.1, ?_⟩
      rintro b hb ⟨p, q, hpq⟩
      have h6 : (!isSpaces b) = true := List.all_eq_true.1 h2.2 (b :: 44 :: q) (mem_sufs ⟨p, by rw [← hpq]; simp⟩)
      rw [hb] at h6; cases h6
  · intro d ws r hp
    have := padFree_sound h3 hp
    simp at this
  · rw [Bool.or_eq_true] at h4
    rcases h4 with h4 | h4
    · left
      rw [Bool.and_eq_true] at h4
      exact ⟨noArrayCheck_sound h4.1, by simpa using h4.2⟩
    · right
      intro d ws r hp
      have := padFree_sound h4 hp
      cases this
  · intro pre ind w hT hls hind
    unfold headCheck at h5
    dsimp only at h5
    rw [Bool.and_eq_true, Bool.and_eq_true] at h5
    have h6 := List.all_eq_true.1 h5.1.1 _ (mem_brackets hT hls hind)
    dsimp only at h6
    rw [Bool.or_eq_true, Bool.or_eq_true] at h6
    rcases h6 with (h6 | h6) | h6
    · exact .inl (noHeadCheck_sound h6)
    · right; left
      simp only [Bool.and_eq_true, Bool.not_eq_true'] at h6
      obtain ⟨⟨⟨h6, h7⟩, h8⟩, h9⟩ := h6
      refine ⟨by simpa using h6, ?_, ?_, ?_⟩
      · rw [← List.contains_iff_mem, h7]; decide
      · rw [← List.contains_iff_mem, h8]; decide
      · intro n P hp
        have := List.all_eq_true.1 h9 _ (mem_headsOf hp)
        cases this
    · right; right
      split at h6
      · rename_i aot P hr
        rw [Bool.and_eq_true] at h6
        refine ⟨aot, P, readHead_sound hr, by simpa using h6.1, ?_⟩
        rintro rfl a m b rfl q hq
        have := h6.2
        simp only [Bool.not_true, Bool.false_or, List.dropLast_concat, List.all_eq_true, bne_iff_ne] at this
        exact this q hq
      · cases h6
  · intro n aot P n' aot' P' h h' hl q hq q' hq' he
    unfold headCheck at h5
    dsimp only at h5
    rw [Bool.and_eq_true, Bool.and_eq_true] at h5
    have h6 := List.all_eq_true.1 (List.all_eq_true.1 h5.1.2 _ (mem_headsOf h)) _ (mem_headsOf h')
    dsimp only at h6
    rw [Bool.or_eq_true] at h6
    rcases h6 with h6 | h6
    · exfalso
      rcases hl with hl | hl
      · simp [hl] at h6
      · simp [hl] at h6
    · have := List.all_eq_true.1 (List.all_eq_true.1 h6 q hq) q' hq'
      simpa [he] using this
  · intro n1 a1 P1 n2 a2 P2 n3 a3 P3 l1 l2 g1 g2 g3 hw p hp1 hp3
    unfold headCheck at h5
    dsimp only at h5
    rw [Bool.and_eq_true, Bool.and_eq_true] at h5
    have h6 := List.all_eq_true.1 (List.all_eq_true.1 (List.all_eq_true.1 h5.2 _ (mem_headsOf g1)) _ (mem_headsOf g2)) _ (mem_headsOf g3)
    dsimp only at h6
    rw [decide_eq_true l1, decide_eq_true l2, Bool.not_true, Bool.false_or, Bool.false_or, Bool.or_eq_true] at h6
    rcases h6 with h6 | h6
    · exfalso
      rcases hw with hw | ⟨w1, w2, w3⟩
      · simp [hw] at h6
      · simp [w1, w2, w3] at h6
    · obtain ⟨t, ht⟩ := hp1
      have := List.all_eq_true.1 h6 p (by rw [← ht]; exact mem_pres2 _ _)
      rw [Bool.or_eq_true] at this
      rcases this with this | this
      · rw [Bool.not_eq_true'] at this
        rw [List.isPrefixOf_iff_prefix.2 hp3] at this; cases this
      · exact List.isPrefixOf_iff_prefix.1 this

end Tomlkit
