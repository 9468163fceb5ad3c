import Verif.Proofs.Hush
import Verif.Proofs.QuietDoc
import Verif.Proofs.ReadTomlDoc
/-!
# The lines of the grammar of `Spec.Kept` are read without loss
-/
namespace Tomlkit
open _root_.Spec Tomlkit.Spec

theorem wp_ok {α : Type} {m : P α} {Q : α → St → Prop} {E : Err → St → Prop} {st s : St} {x : α} (h : m st = .ok x s) (hq : Q x s) : m.wp Q E st := by
  unfold P.wp; rw [h]; exact hq

/-! ### the end of a line -/

theorem commentTrail_hush {b cm nl t : Str} (hb : Spaces b) (hc : Cmt cm) (hn : Eol nl t) (e : Str) (a : List Key) :
    ∃ cws tr e', parseCommentTrail true ⟨b ++ (cm ++ (nl ++ t)), e, a, []⟩ = .ok (cws, cm, tr) ⟨t, e', a, []⟩ ∧ (cm = [] → cws = []) ∧
      (cm ≠ [] → cws = b) ∧ (hasNl tr = true ∨ t = []) := by
  obtain ⟨cws, tr, e', h, h1, h2⟩ := trail_reads hb hc hn e a []
  refine ⟨cws, tr, e', h, h1, h2, ?_⟩
  have hk := parseCommentTrail_keeps ⟨b ++ (cm ++ (nl ++ t)), e, a, []⟩
  unfold Keeps P.wp at hk
  rw [h] at hk
  have hate := (hk.fact rfl).1
  unfold Ate at hate
  simp only at hate
  rw [show b ++ (cm ++ (nl ++ t)) = b ++ cm ++ nl ++ t by simp] at hate
  have hate := List.append_cancel_right hate
  have hnl : hasNl nl = true ∨ t = [] := by
    cases hn with
    | lf => exact .inl rfl
    | crlf => exact .inl rfl
    | eof => exact .inr rfl
  rcases hnl with hnl | rfl
  · left
    by_cases hcm : cm = []
    · rw [h1 hcm, hcm] at hate
      simp only [List.append_nil, List.nil_append] at hate
      rw [← hate]
      unfold hasNl at *
      simp at hnl ⊢
      exact .inr hnl
    · rw [h2 hcm] at hate
      rw [← List.append_cancel_left hate]
      exact hnl
  · exact .inr rfl

/-! ### one line -/

/-- a line that is not a header -/
def LineAt (s t : Str) : Prop :=
  ∀ e a, parseItem.wp (fun r st => st.loss = [] ∧ r ≠ none ∧ st.rest = t) (fun _ _ => True) ⟨s, e, a, []⟩

/-- a header after its indentation -/
def HeadAt (s t : Str) (aot : Bool) (P : List (Str × Str)) : Prop :=
  ∀ e a, parseHeader.wp (fun d st => st.loss = [] ∧ st.rest = t ∧ d.indent = e ∧ d.isAot = aot ∧ HeadKey d.key P) (fun _ _ => True) ⟨s, e, a, []⟩

theorem line_blank {b nl t : Str} (hb : Blanks b) (hn : LineEnd nl t) (hne : b ++ nl ≠ []) : LineAt (b ++ (nl ++ t)) t := by
  intro e a
  obtain ⟨x, e', h⟩ := item_blank (blanks_spaces hb) (lineEnd_eol hn) hne e a []
  unfold P.wp
  rw [h]
  exact ⟨rfl, by simp, rfl⟩

theorem line_comment {b cm nl t : Str} (hb : Blanks b) (hc : ∀ c ∈ cm, NotControl c) (hn : LineEnd nl t) :
    LineAt (b ++ 35 :: (cm ++ (nl ++ t))) t := by
  intro e a
  obtain ⟨x, e', h, _⟩ := item_cmt (blanks_spaces hb) (fun c h => notControl_comment (hc c h)) (lineEnd_eol hn) e a []
  unfold P.wp
  rw [h]
  exact ⟨rfl, by simp, rfl⟩

theorem line_pair {key : Str} {path : List Str} {b3 e b4 cm nl t : Str} (hk : DottedText key path) (h3 : Blanks b3) (he : KeptValue e)
    (h4 : Blanks b4) (hc : CommentText cm) (hn : LineEnd nl t) (hd : SpacedDate e → cm = [] ∨ 9 ∉ b4 ∨ b4.head? = some 9) :
    LineAt (key ++ 61 :: (b3 ++ (e ++ (b4 ++ (cm ++ (nl ++ t)))))) t := by
  intro x a
  have hc := commentText_cmt hc
  have hn := lineEnd_eol hn
  obtain ⟨ind, H', c, r, hkey, hi, hH', hH, q1, _, _, q2, q3, q4⟩ := dotted_lead hk
  obtain ⟨b1, b2, rfl, hb1, hb2, hb3⟩ := spaces_split (blanks_spaces h4)
  have hend : DateEnds (b2 ++ (cm ++ (nl ++ t))) := by
    rcases hb3 with rfl | ⟨r, rfl⟩
    · rw [List.nil_append]; exact dateEnds_tail hc hn
    · exact .inr ⟨9, _, rfl, rfl⟩
  have hX : key ++ 61 :: (b3 ++ (e ++ (b1 ++ b2 ++ (cm ++ (nl ++ t))))) = key ++ 61 :: (b3 ++ (e ++ (b1 ++ (b2 ++ (cm ++ (nl ++ t)))))) := by simp
  rw [hX]
  generalize hT : key ++ 61 :: (b3 ++ (e ++ (b1 ++ (b2 ++ (cm ++ (nl ++ t)))))) = X
  have hlen : (e ++ (b1 ++ (b2 ++ (cm ++ (nl ++ t))))).length + 1 ≤ X.length := by rw [← hT]; simp; omega
  have hdrop : X.dropWhile isSpTabCr = c :: (r ++ 61 :: (b3 ++ (e ++ (b1 ++ (b2 ++ (cm ++ (nl ++ t))))))) := by
    rw [← hT, hkey, hH, List.append_assoc]
    exact dropWhile_append_stop (spaces_spTabCr hi) q1 _
  unfold parseItem
  refine wp_bind (wp_mark (wp_bind (wp_getSt (wp_bind (wp_skip (wp_bind (wp_getSt ?_)))))))
  rw [hdrop]
  refine wp_ite (fun h => absurd h q2) fun _ => wp_ite (fun h => ?_) fun _ => wp_ite (fun h => absurd h q3) fun _ =>
    wp_ite (fun h => absurd h q4) fun _ => wp_bind ?_
  · simp [St.atEnd] at h
  refine wp_mono (Q := fun (_ : Key × Item) st => st.loss = [] ∧ st.rest = t) (E := fun _ _ => True) ?_ (fun p st h => ⟨h.1, by simp, h.2⟩) fun _ _ _ => trivial
  show (parseKeyValue (valueFuel X) true).wp _ _ ⟨X, [], a, []⟩
  obtain ⟨K, i, hkv⟩ := kv_dotted hk (blanks_spaces h3) (kept_noSep he (b1 ++ (b2 ++ (cm ++ (nl ++ t))))) (valueFuel X - 1) [] a []
  have hf : valueFuel X - 1 + 1 = valueFuel X := by unfold valueFuel; omega
  rw [hT, hf] at hkv
  refine wp_move (hkv true) (wp_bind ?_)
  have hst : Still (e ++ (b1 ++ (b2 ++ (cm ++ (nl ++ t))))) ⟨e ++ (b1 ++ (b2 ++ (cm ++ (nl ++ t)))), 61 :: b3, a, []⟩ := ⟨List.suffix_refl _, rfl⟩
  refine wp_mono ((hush _).1 e b1 (b2 ++ (cm ++ (nl ++ t))) (61 :: b3) a he hb1 hend (by unfold valueFuel; omega)) ?_ fun _ _ _ => trivial
  rintro v ⟨r1, e1, a1, l1⟩ ⟨h1, h2⟩
  change l1 = [] at h1
  subst h1
  refine wp_ite (fun _ => wp_bind ?_) fun h => absurd rfl h
  rcases h2 with ⟨h2, h3⟩ | ⟨h2, h3, h5⟩
  · change r1 = _ at h3
    subst h3
    obtain ⟨cws, tr, e', g1, _⟩ := commentTrail_hush (b := b1 ++ b2) (blanks_spaces h4) hc hn e1 a1
    rw [List.append_assoc] at g1
    refine wp_ok g1 ?_
    refine wp_bind (wp_note ?_)
    rw [h2]
    exact ⟨rfl, rfl⟩
  · change r1 = _ at h5
    subst h5
    obtain ⟨cws, tr, e', g1, g2, g3, _⟩ := commentTrail_hush (b := b2) hb2 hc hn e1 a1
    refine wp_ok g1 ?_
    refine wp_bind (wp_note ?_)
    have hz : (!v.trivia.commentWs.isEmpty && !cws.isEmpty) = false := by
      rw [h3]
      rcases hd h2 with h | h | h
      · rw [g2 h]; simp
      · by_cases hcm : cm = []
        · rw [g2 hcm]; simp
        · rw [g3 hcm]
          rcases hb3 with rfl | ⟨r, rfl⟩
          · simp
          · simp at h
      · cases b1 with
        | nil => rfl
        | cons z b1 =>
          have := hb1 z (by simp)
          subst this
          cases h
    rw [hz]
    exact ⟨rfl, rfl⟩

/-! ### headers -/

theorem head_plain {key : Str} {P : List (Str × Str)} {b cm nl t : Str} (hk : PathText key P) (hb : Blanks b) (hc : CommentText cm) (hn : LineEnd nl t) :
    HeadAt (91 :: (key ++ 93 :: (b ++ (cm ++ (nl ++ t))))) t false P := by
  intro e a
  obtain ⟨c, r, hkc, hne⟩ := path_head hk
  unfold parseHeader
  refine wp_bind (wp_getSt (wp_ite (fun _ => trivial) fun _ => ?_))
  refine wp_bind (wp_extract (wp_bind (wp_step (wp_bind (wp_getSt (wp_ite (fun _ => trivial) fun _ => ?_))))))
  have hf : decide ((⟨key ++ 93 :: (b ++ (cm ++ (nl ++ t))), e ++ [91], a, []⟩ : St).cur = 91) = false := by
    rw [hkc]; exact decide_eq_false hne
  show Tomlkit.P.wp _ _ _ ⟨key ++ 93 :: (b ++ (cm ++ (nl ++ t))), e ++ [91], a, []⟩
  simp only [List.drop_succ_cons, List.drop_zero, List.take_succ_cons, List.take_zero]
  rw [hf]
  obtain ⟨K, x, h1, h2⟩ := headerKey_path hk (b ++ (cm ++ (nl ++ t))) (e ++ [91]) a []
  rw [if_neg (by decide)]
  refine wp_bind (wp_getSt (wp_ite (fun _ => trivial) fun _ => wp_bind ?_))
  refine wp_ok h1 ?_
  refine wp_bind (wp_getSt (wp_ite (fun _ => trivial) fun _ => wp_ite (fun _ => trivial) fun _ => wp_ite (fun _ => trivial) fun _ => ?_))
  refine wp_bind (wp_step (wp_bind (wp_getSt (wp_bind (wp_note ?_)))))
  rw [if_neg (by decide)]
  obtain ⟨cws, tr, e', g1, _, _, g4⟩ := commentTrail_hush (blanks_spaces hb) (commentText_cmt hc) (lineEnd_eol hn) (x ++ [93]) a
  refine wp_bind ?_
  show Tomlkit.P.wp _ _ _ ⟨b ++ (cm ++ (nl ++ t)), x ++ [93], a, []⟩
  refine wp_ok g1 ?_
  refine wp_bind (wp_getSt (wp_bind (wp_note ?_)))
  have hz : (!hasNl tr && !(⟨t, e', a, []⟩ : St).atEnd) = false := by
    rcases g4 with g4 | g4
    · rw [g4]; rfl
    · subst g4; simp [St.atEnd]
  rw [hz]
  exact ⟨rfl, rfl, rfl, rfl, h2.setSep []⟩

theorem head_array {key : Str} {P : List (Str × Str)} {b cm nl t : Str} (hk : PathText key P) (hb : Blanks b) (hc : CommentText cm) (hn : LineEnd nl t) :
    HeadAt (91 :: 91 :: (key ++ 93 :: 93 :: (b ++ (cm ++ (nl ++ t))))) t true P := by
  intro e a
  unfold parseHeader
  refine wp_bind (wp_getSt (wp_ite (fun _ => trivial) fun _ => ?_))
  refine wp_bind (wp_extract (wp_bind (wp_step (wp_bind (wp_getSt (wp_ite (fun _ => trivial) fun _ => ?_))))))
  have hf : decide ((⟨91 :: (key ++ 93 :: 93 :: (b ++ (cm ++ (nl ++ t)))), e ++ [91], a, []⟩ : St).cur = 91) = true := rfl
  show Tomlkit.P.wp _ _ _ ⟨91 :: (key ++ 93 :: 93 :: (b ++ (cm ++ (nl ++ t)))), e ++ [91], a, []⟩
  simp only [List.drop_succ_cons, List.drop_zero, List.take_succ_cons, List.take_zero]
  rw [hf]
  obtain ⟨K, x, h1, h2⟩ := headerKey_path hk (93 :: (b ++ (cm ++ (nl ++ t)))) (e ++ [91] ++ [91]) a []
  rw [if_pos rfl]
  refine wp_bind (wp_step (wp_bind (wp_getSt (wp_ite (fun _ => trivial) fun _ => wp_bind ?_))))
  refine wp_ok h1 ?_
  refine wp_bind (wp_getSt (wp_ite (fun _ => trivial) fun _ => wp_ite (fun _ => trivial) fun _ => wp_ite (fun _ => trivial) fun _ => ?_))
  refine wp_bind (wp_step (wp_bind (wp_getSt (wp_bind (wp_note ?_)))))
  rw [if_pos rfl]
  refine wp_bind (wp_step ?_)
  obtain ⟨cws, tr, e', g1, _, _, g4⟩ := commentTrail_hush (blanks_spaces hb) (commentText_cmt hc) (lineEnd_eol hn) (x ++ [93] ++ [93]) a
  refine wp_bind ?_
  show Tomlkit.P.wp _ _ _ ⟨b ++ (cm ++ (nl ++ t)), x ++ [93] ++ [93], a, []⟩
  refine wp_ok g1 ?_
  refine wp_bind (wp_getSt (wp_bind (wp_note ?_)))
  have hz : (!hasNl tr && !(⟨t, e', a, []⟩ : St).atEnd) = false := by
    rcases g4 with g4 | g4
    · rw [g4]; rfl
    · subst g4; simp [St.atEnd]
  rw [hz]
  exact ⟨rfl, rfl, rfl, rfl, h2.setSep []⟩

/-! ### texts -/

/-- Lines and headers; the headers with the length of the text from the beginning of their line and from the bracket. -/
inductive KeptAt : Str → List (Nat × Nat × Bool × List (Str × Str)) → Prop
  | nil : KeptAt [] []
  | line {s t : Str} {hs} (hl : LineAt s t) (hlen : t.length ≤ s.length) (h91 : s.head? ≠ some 91) (h : KeptAt t hs) : KeptAt s hs
  | head {b w t : Str} {aot : Bool} {P : List (Str × Str)} {hs} (hb : Blanks b) (hh : HeadAt (91 :: w) t aot P) (hlen : t.length ≤ w.length)
      (hi : b = [] ∨ P.length ≤ 2) (hq : aot = true → FirstOnce P) (h : KeptAt t hs) :
      KeptAt (b ++ 91 :: w) ((b.length + (w.length + 1), w.length + 1, aot, P) :: hs)

theorem kept_at {s : Str} {hs : List (Bool × List (Str × Str))} (h : KeptLines s hs) : ∃ ann, KeptAt s ann ∧ hs = ann.map fun x => x.2.2 := by
  induction h with
  | nil => exact ⟨[], .nil, rfl⟩
  | blank b nl t hs hb hn hne _ ih =>
    obtain ⟨ann, h1, h2⟩ := ih
    refine ⟨ann, .line (line_blank hb hn hne) (by simp; omega) ?_ h1, h2⟩
    cases b with
    | cons c b => rcases hb c (by simp) with rfl | rfl <;> simp
    | nil =>
      rcases hn with (rfl | rfl) | ⟨rfl, rfl⟩
      · simp
      · simp
      · exact absurd rfl hne
  | comment b cm nl t hs hb hc hn _ ih =>
    obtain ⟨ann, h1, h2⟩ := ih
    refine ⟨ann, .line (line_comment hb hc hn) (by simp; omega) ?_ h1, h2⟩
    cases b with
    | cons c b => rcases hb c (by simp) with rfl | rfl <;> simp
    | nil => simp
  | pair key path b3 e b4 cm nl t hs hk h3 he h4 hc hn hd _ ih =>
    obtain ⟨ann, h1, h2⟩ := ih
    refine ⟨ann, .line (line_pair hk h3 he h4 hc hn hd) (by simp; omega) ?_ h1, h2⟩
    obtain ⟨ind, H', c, r, rfl, hi, _, rfl, _, _, _, _, _, q⟩ := dotted_lead hk
    cases ind with
    | cons x b =>
      have := hi x (by simp)
      simp only [isSpaces, Bool.or_eq_true, beq_iff_eq] at this
      simp; omega
    | nil => simpa using q
  | header b0 key P b cm nl t hs h0 hk hi hb hc hn _ ih =>
    obtain ⟨ann, h1, h2⟩ := ih
    exact ⟨_, .head h0 (head_plain hk hb hc hn) (by simp; omega) hi (fun h => by cases h) h1, by rw [h2]; rfl⟩
  | arrayHeader b0 key P b cm nl t hs h0 hk hi hq hb hc hn _ ih =>
    obtain ⟨ann, h1, h2⟩ := ih
    exact ⟨_, .head h0 (head_array hk hb hc hn) (by simp; omega) hi (fun _ => hq) h1, by rw [h2]; rfl⟩

theorem KeptAt.bound {s : Str} {ann} (h : KeptAt s ann) : (∀ x ∈ ann, x.2.1 ≤ x.1 ∧ x.1 ≤ s.length) ∧ ann.Pairwise fun x y => y.1 < x.2.1 := by
  induction h with
  | nil => exact ⟨(fun _ h => by cases h), .nil⟩
  | line _ hlen _ _ ih => exact ⟨fun x hx => ⟨(ih.1 x hx).1, Nat.le_trans (ih.1 x hx).2 hlen⟩, ih.2⟩
  | @head b w t aot P hs hb hh hlen hi hq h ih =>
    refine ⟨?_, List.pairwise_cons.2 ⟨fun y hy => ?_, ih.2⟩⟩
    · intro x hx
      rcases List.mem_cons.1 hx with rfl | hx
      · simp
      · have := ih.1 x hx
        simp; omega
    · have := (ih.1 y hy).2
      show y.1 < w.length + 1
      omega

section
variable (T : Str) (ann : List (Nat × Nat × Bool × List (Str × Str)))

def KeptL (s : St) : Prop := ∃ suf, suf <:+ ann ∧ KeptAt s.rest suf
def KeptH (s : St) : Prop := s.rest = [] ∨ ∃ w t aot P hs, s.rest = 91 :: w ∧ HeadAt (91 :: w) t aot P ∧ (s.ext = [] ∨ P.length ≤ 2) ∧
  (aot = true → FirstOnce P) ∧ KeptAt t hs ∧ ((s.ext.length + (w.length + 1), w.length + 1, aot, P) :: hs) <:+ ann
def KeptA : HeadRel := fun n aot P => ∃ m r, (m, r, aot, P) ∈ ann ∧ n = T.length - m
end

theorem kept_fit {T : Str} {ann} (h : KeptAt T ann) (h1 : SpelledOnce (ann.map fun x => x.2.2)) (h2 : NotTorn (ann.map fun x => x.2.2)) :
    HeadsFit (KeptA T ann) := by
  obtain ⟨hb, hp⟩ := h.bound
  have hdec : ∀ (i j : Nat) (x y : Nat × Nat × Bool × List (Str × Str)), ann[i]? = some x → ann[j]? = some y → y.1 < x.1 → i < j := by
    intro i j x y hi hj hlt
    rcases Nat.lt_trichotomy i j with h | h | h
    · exact h
    · subst h
      rw [hi] at hj
      cases hj
      omega
    · exfalso
      obtain ⟨hi', rfl⟩ := List.getElem?_eq_some_iff.1 hi
      obtain ⟨hj', rfl⟩ := List.getElem?_eq_some_iff.1 hj
      have := (List.pairwise_iff_getElem.1 hp) j i hj' hi' h
      have := (hb _ (List.getElem_mem hj')).1
      omega
  constructor
  · rintro n aot P n' aot' P' ⟨m, r, hm, _⟩ ⟨m', r', hm', _⟩ hc q hq q' hq'
    exact h1 _ (List.mem_map_of_mem (f := fun x => x.2.2) hm) _ (List.mem_map_of_mem (f := fun x => x.2.2) hm') hc q hq q' hq'
  · rintro n1 a1 P1 n2 a2 P2 n3 a3 P3 l1 l2 ⟨m1, r1, hm1, rfl⟩ ⟨m2, r2, hm2, rfl⟩ ⟨m3, r3, hm3, rfl⟩ hc p hp1 hp3
    obtain ⟨i, hi⟩ := List.getElem?_of_mem hm1
    obtain ⟨j, hj⟩ := List.getElem?_of_mem hm2
    obtain ⟨k, hk⟩ := List.getElem?_of_mem hm3
    have b1 := (hb _ hm1).2
    have b2 := (hb _ hm2).2
    have b3 := (hb _ hm3).2
    simp only at b1 b2 b3
    refine h2 i j k a1 P1 a2 P2 a3 P3 (hdec _ _ _ _ hi hj (by simp only; omega)) (hdec _ _ _ _ hj hk (by simp only; omega)) ?_ ?_ ?_ hc p hp1 hp3
    · rw [List.getElem?_map, hi]; rfl
    · rw [List.getElem?_map, hj]; rfl
    · rw [List.getElem?_map, hk]; rfl

theorem padDate_nil {d ws r : Str} (h : PadDate [] d ws r) : False := by
  have := List.suffix_nil.1 h.sub
  simp only [List.append_eq_nil_iff] at this
  exact h.ne this.2.1

theorem calm_nil : CalmValues [] where
  cr p r h := by simp at h
  brace := .inl (by simp)
  tab _ _ _ h := padDate_nil h
  date := .inr fun _ _ _ h => padDate_nil h

theorem kept_course {T : Str} {ann} (h : KeptAt T ann) (h1 : SpelledOnce (ann.map fun x => x.2.2)) (h2 : NotTorn (ann.map fun x => x.2.2)) :
    Course T (KeptA T ann) (KeptL ann) (KeptH ann) where
  toHeadsFit := kept_fit h h1 h2
  item st hs hl := by
    obtain ⟨suf, hsuf, hk⟩ := hl
    obtain ⟨r, e, a, l⟩ := st
    have hl := hs.loss
    change l = [] at hl
    change KeptAt r suf at hk
    subst hl
    cases hk with
    | nil =>
      refine wp_mono (wp_both (parseItem_quiet calm_nil ⟨[], e, a, []⟩ ⟨List.suffix_refl _, rfl⟩ (.inl rfl)) (parseItem_does ⟨[], e, a, []⟩)) ?_
        fun _ _ _ => trivial
      rintro r s ⟨⟨g1, g2, g3⟩, g4, _⟩
      have hr : s.rest = [] := List.suffix_nil.1 g4.suf
      exact ⟨g1, fun _ => ⟨[], hsuf, by rw [hr]; exact .nil⟩, fun _ => .inl hr⟩
    | line hl hlen h91 hk =>
      refine wp_mono (hl e a) ?_ fun _ _ _ => trivial
      rintro r s ⟨g1, g2, g3⟩
      exact ⟨g1, fun _ => ⟨suf, hsuf, by rw [g3]; exact hk⟩, fun h => absurd h g2⟩
    | @head b w t aot P hs' hb hh hlen hi hq hk =>
      unfold parseItem
      refine wp_bind (wp_mark (wp_bind (wp_getSt (wp_bind (wp_skip (wp_bind (wp_getSt ?_)))))))
      have h91 : isSpTabCr 91 = false := rfl
      simp only [dropWhile_append_stop (spaces_spTabCr (blanks_spaces hb)) h91, takeWhile_append_stop (spaces_spTabCr (blanks_spaces hb)) h91]
      refine wp_ite (fun h => by cases h) fun _ => wp_ite (fun h => by simp [St.atEnd] at h) fun _ => wp_ite (fun h => by cases h) fun _ =>
        wp_ite (fun _ => ?_) fun h => absurd rfl h
      exact ⟨rfl, fun h => absurd rfl h, fun _ => .inr ⟨w, t, aot, P, hs', rfl, hh, by simpa using hi, hq, hk, by simpa using hsuf⟩⟩
  header st hs hh hne := by
    obtain ⟨w, t, aot, P, hs', hr, hH, hi, hq, hk, hsuf⟩ := hh.resolve_left hne
    obtain ⟨r, e, a, l⟩ := st
    have hl := hs.loss
    change l = [] at hl
    change r = _ at hr
    subst hl hr
    have hstill := wp_both (hH e a) (parseHeader_does ⟨91 :: w, e, a, []⟩)
    refine wp_mono hstill ?_ fun _ _ _ => trivial
    rintro d s ⟨⟨g1, g2, g3, g4, g5⟩, g6, _⟩
    refine ⟨⟨g6.trans hs.suf, g1⟩, ⟨hs', (List.suffix_cons _ _).trans hsuf, by rw [g2]; exact hk⟩, g3, P, g5, .inl ⟨_, w.length + 1, ?_, rfl⟩, hi, ?_⟩
    · rw [g4]
      exact hsuf.subset (by simp)
    · rw [g4]; exact hq
  lineRest s s' h hl := by unfold KeptL at *; rw [h]; exact hl
  headRest s s' h h' hl := by unfold KeptH at *; rw [h, h']; exact hl
  atEnd s h := Or.inl h
  lineHead s hl he hc := by
    obtain ⟨suf, hsuf, hk⟩ := hl
    obtain ⟨r, hr⟩ := cur_cons hc (by decide)
    rw [hr] at hk
    generalize hX : (91 :: r : Str) = X at hk
    cases hk with
    | nil => cases hX
    | line _ _ h91 => rw [← hX] at h91; exact absurd rfl h91
    | @head b w t aot P hs hb hh hlen hi hq hk =>
      cases b with
      | cons c b =>
        cases hX
        rcases hb 91 (by simp) with h | h <;> cases h
      | nil =>
        cases hX
        exact .inr ⟨_, t, aot, P, hs, hr, hh, .inl he, hq, hk, by rw [he]; simpa using hsuf⟩
  pos s s' hh hh' hlt hne := by
    have hne0 : s.rest ≠ [] := by intro h0; rw [h0] at hlt; simp at hlt
    obtain ⟨w, t, aot, P, hs, hr, _, _, _, _, hsuf⟩ := hh.resolve_left hne0
    obtain ⟨w', t', aot', P', hs', hr', _, _, _, _, hsuf'⟩ := hh'.resolve_left hne
    obtain ⟨hb, hp⟩ := h.bound
    have e1 := congrArg List.length hr
    have e2 := congrArg List.length hr'
    simp only [List.length_cons] at e1 e2
    have b1 := hb _ (hsuf.subset (List.mem_cons_self ..))
    have b2 := hb _ (hsuf'.subset (List.mem_cons_self ..))
    simp only at b1 b2
    unfold headPos
    rcases List.suffix_or_suffix_of_suffix hsuf hsuf' with hx | hx
    · rcases List.suffix_cons_iff.1 hx with hx | hx
      · have := (List.cons.inj hx).1
        simp only [Prod.mk.injEq] at this
        omega
      · have := (List.pairwise_cons.1 (hp.sublist hsuf'.sublist)).1 _ (hx.subset (List.mem_cons_self ..))
        simp only at this
        omega
    · rcases List.suffix_cons_iff.1 hx with hx | hx
      · have := (List.cons.inj hx).1
        simp only [Prod.mk.injEq] at this
        omega
      · have := (List.pairwise_cons.1 (hp.sublist hsuf.sublist)).1 _ (hx.subset (List.mem_cons_self ..))
        simp only at this
        omega

/-- nothing is lost in a text of this grammar -/
theorem parse_kept {s : Str} {hs : List (Bool × List (Str × Str))} (hk : KeptLines s hs) (h1 : SpelledOnce hs) (h2 : NotTorn hs) {c : Cont}
    (h : parse s = .ok c) : parseLog s = .ok (c, []) := by
  obtain ⟨ann, ha, rfl⟩ := kept_at hk
  exact parse_course (kept_course ha h1 h2) ⟨ann, List.suffix_refl _, ha⟩ h

end Tomlkit
