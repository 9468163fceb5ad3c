import Verif.Spec.Kept
import Verif.Proofs.ReadTomlDoc
import Verif.Proofs.QuietValues
/-!
# Values of kept texts write nothing to the log
-/
namespace Tomlkit
open _root_.Spec Tomlkit.Spec

/-! ### white space after values -/

/-- a date or a date with time -/
def Item.IsDate (v : Item) : Prop := (∃ d t r, v = .date d t r) ∨ ∃ d t r, v = .datetime d t r

theorem digits_cws (st : St) : parseDigits.wp (fun v _ => v.trivia.commentWs ≠ [] → v.IsDate) (fun _ _ => True) st := by
  unfold parseDigits
  refine wp_bind (wp_skip (wp_bind (wp_extract ?_)))
  generalize ({ st with rest := st.rest.dropWhile fun c => !isValueEnd c, ext := st.ext ++ st.rest.takeWhile fun c => !isValueEnd c } : St) = s
  have hnum : (match parseNumber s.ext {} with
    | some i => (pure i : P Item)
    | none => fail .invalidNumber).wp (fun v _ => v.trivia.commentWs ≠ [] → v.IsDate) (fun _ _ => True) s := by
    rcases hp : parseNumber s.ext {} with _ | i
    · exact trivial
    · obtain ⟨h1, h2, h3, h4⟩ := parseNumber_text hp
      intro h
      rw [h2] at h
      exact absurd rfl h
  show P.wp (match matchLoose s.ext with | _ => _) _ _ s
  have hd : ∀ (k : PKind) e, (dateErr k e : P Item).wp (fun v _ => v.trivia.commentWs ≠ [] → v.IsDate) (fun _ _ => True) s := by
    intro k e; cases e <;> exact trivial
  rcases hm : matchLoose s.ext with _ | ⟨_ | _, _ | _⟩
  · exact hnum
  · exact hnum
  · dsimp only
    rcases hp : parseRfc3339 s.ext with e | v
    · cases e <;> exact trivial
    · cases v with
      | time d => exact fun h => absurd rfl h
      | _ => exact trivial
  · dsimp only
    rcases hp : parseRfc3339 s.ext with e | v
    · cases e <;> exact trivial
    · cases v with
      | time d => exact trivial
      | date d =>
        refine wp_bind (wp_mark (wp_bind (wp_skip (wp_bind (wp_extract ?_)))))
        refine wp_ite (fun _ => ?_) fun _ => ?_
        · exact fun _ => Or.inl ⟨_, _, _, rfl⟩
        · dsimp only
          split
          · exact fun _ => Or.inr ⟨_, _, _, rfl⟩
          · exact trivial
          · rename_i e _; cases e <;> exact trivial
      | datetime d =>
        refine wp_bind (wp_mark (wp_bind (wp_skip (wp_bind (wp_extract ?_)))))
        refine wp_ite (fun _ => ?_) fun _ => ?_
        · exact fun _ => Or.inl ⟨_, _, _, rfl⟩
        · dsimp only
          split
          · exact fun _ => Or.inr ⟨_, _, _, rfl⟩
          · exact trivial
          · rename_i e _; cases e <;> exact trivial
  · dsimp only
    rcases hp : parseRfc3339 s.ext with e | v
    · cases e <;> exact trivial
    · cases v with
      | datetime d => exact fun h => absurd rfl h
      | _ => exact trivial

/-- white space is read after dates only -/
theorem value_cws (n : Nat) (st : St) : (parseValue n).wp (fun v s => s.loss = [] → v.trivia.commentWs ≠ [] → v.IsDate) (fun _ _ => True) st := by
  cases n with
  | zero => exact trivial
  | succ n =>
    unfold parseValue
    refine wp_bind (wp_mark (wp_bind (wp_getSt ?_)))
    have hstr : ∀ d, d.isMultiline = false → ∀ s, P.wp (restoring (parseString d))
        (fun v s => s.loss = [] → v.trivia.commentWs ≠ [] → v.IsDate) (fun _ _ => True) s := by
      intro d hd s
      refine wp_restoring (wp_mono (parseString_keeps d hd s) ?_ fun _ _ _ => trivial)
      intro a s' h h0
      obtain ⟨ty, x, o, rfl, _⟩ := h.fact h0
      exact fun h => absurd rfl h
    have hbool : ∀ w b s, P.wp (parseBool w b) (fun v s => s.loss = [] → v.trivia.commentWs ≠ [] → v.IsDate) (fun _ _ => True) s := by
      intro w b s
      unfold P.wp parseBool
      split
      · rename_i h
        split at h
        · cases h; exact fun _ h => absurd rfl h
        · cases h
      · trivial
    refine wp_ite (fun _ => hstr _ rfl _) fun _ => wp_ite (fun _ => hstr _ rfl _) fun _ => wp_ite (fun _ => hbool _ _ _) fun _ =>
      wp_ite (fun _ => hbool _ _ _) fun _ => wp_ite (fun _ => ?_) fun _ => wp_ite (fun _ => ?_) fun _ => wp_ite (fun _ => ?_) fun _ =>
      wp_ite (fun _ => ?_) fun _ => trivial
    · refine wp_bind ?_
      unfold P.wp
      rcases stepE _ with ⟨_, s⟩ | ⟨_, s⟩
      · refine wp_bind ?_
        unfold P.wp
        rcases arrayLoop n false [] s with ⟨_, s⟩ | ⟨_, s⟩
        · exact fun _ h => absurd rfl h
        · trivial
      · trivial
    · refine wp_bind ?_
      unfold P.wp
      rcases stepE _ with ⟨_, s⟩ | ⟨_, s⟩
      · refine wp_bind ?_
        unfold P.wp
        rcases inlineParse n none (.empty true) s with ⟨_, s⟩ | ⟨_, s⟩
        · exact fun _ h => absurd rfl h
        · trivial
      · trivial
    · refine wp_bind (wp_skip (wp_bind (wp_extract ?_)))
      dsimp only
      split
      · rename_i i hp
        obtain ⟨h1, h2, h3, h4⟩ := parseNumber_text hp
        intro _ h
        rw [h2] at h
        exact absurd rfl h
      · trivial
    · exact wp_mono (digits_cws _) (fun _ _ h _ => h) fun _ _ _ => trivial

/-- a value that is no array and no inline table -/
theorem scalar_hush {s : Str} {v : PyVal} (h : ValueText s v) (ha : s.head? ≠ some 91) (ht : s.head? ≠ some 123) (n : Nat) (b tail e : Str)
    (a : List Key) (hb : Blank b) (htl : DateEnds tail) (hn : s.length < n) :
    (parseValue n).wp (fun v s' => s'.loss = [] ∧ ((v.trivia.commentWs = [] ∧ s'.rest = b ++ tail) ∨
      (SpacedDate s ∧ v.trivia.commentWs = b ∧ s'.rest = tail))) (fun _ _ => False) ⟨s ++ (b ++ tail), e, a, []⟩ := by
  have plain : ReadsAs True s v → ((∀ d, v ≠ .date d) ∧ ∀ d, v ≠ .datetime d) → (parseValue n).wp (fun v s' => s'.loss = [] ∧
      ((v.trivia.commentWs = [] ∧ s'.rest = b ++ tail) ∨ (SpacedDate s ∧ v.trivia.commentWs = b ∧ s'.rest = tail)))
      (fun _ _ => False) ⟨s ++ (b ++ tail), e, a, []⟩ := by
    intro hr hnd
    obtain ⟨i, st, h1, h2, h3, h4, h5, h6⟩ := hr n b tail e a [] hn hb htl
    have hw := value_cws n ⟨s ++ (b ++ tail), e, a, []⟩
    unfold P.wp at hw ⊢
    rw [h1] at hw ⊢
    refine ⟨h6 trivial, .inl ?_⟩
    rcases h5 with h5 | ⟨h5, h7⟩
    · exact h5
    · by_cases hc : i.trivia.commentWs = []
      · rw [hc] at h5
        exact ⟨hc, by rw [← h5, h7]; rfl⟩
      · obtain ⟨n0, hu⟩ := means_unwrap h2
        rcases hw (h6 trivial) hc with ⟨d, t, r, rfl⟩ | ⟨d, t, r, rfl⟩
        · have := hu (n0 + 1) (by omega)
          unfold Item.unwrap at this
          exact absurd (Except.ok.inj this).symm (hnd.1 d)
        · have := hu (n0 + 1) (by omega)
          unfold Item.unwrap at this
          exact absurd (Except.ok.inj this).symm (hnd.2 d)
  have date : ReadsAs True s v → SpacedDate s → (parseValue n).wp (fun v s' => s'.loss = [] ∧
      ((v.trivia.commentWs = [] ∧ s'.rest = b ++ tail) ∨ (SpacedDate s ∧ v.trivia.commentWs = b ∧ s'.rest = tail)))
      (fun _ _ => False) ⟨s ++ (b ++ tail), e, a, []⟩ := by
    intro hr hd
    obtain ⟨i, st, h1, h2, h3, h4, h5, h6⟩ := hr n b tail e a [] hn hb htl
    unfold P.wp
    rw [h1]
    exact ⟨h6 trivial, h5.imp id fun h => ⟨hd, h⟩⟩
  cases h with
  | true => exact plain (reads_bool true) ⟨(fun _ h => by cases h), (fun _ h => by cases h)⟩
  | false => exact plain (reads_bool false) ⟨(fun _ h => by cases h), (fun _ h => by cases h)⟩
  | int _ i h => exact plain (reads_integer h) ⟨(fun _ h => by cases h), (fun _ h => by cases h)⟩
  | float _ t h => exact plain (reads_floatLiteral h) ⟨(fun _ h => by cases h), (fun _ h => by cases h)⟩
  | str _ v h => exact plain (reads_string h) ⟨(fun _ h => by cases h), (fun _ h => by cases h)⟩
  | date _ d h => exact date (reads_tomlDate h) (.inl ⟨d, h⟩)
  | time _ t h => exact plain (reads_tomlTime h) ⟨(fun _ h => by cases h), (fun _ h => by cases h)⟩
  | datetime _ v h =>
    have h0 := h
    obtain ⟨ds, sep, ts, zs, rfl, hsep, h1, h2, h3⟩ := h
    have letter : sep = 84 ∨ sep = 116 → (parseValue n).wp (fun v s' => s'.loss = [] ∧
      ((v.trivia.commentWs = [] ∧ s'.rest = b ++ tail) ∨ (SpacedDate (ds ++ sep :: (ts ++ zs)) ∧ v.trivia.commentWs = b ∧ s'.rest = tail)))
      (fun _ _ => False) ⟨ds ++ sep :: (ts ++ zs) ++ (b ++ tail), e, a, []⟩ := by
      intro hs
      obtain ⟨n, rfl⟩ := succ_of_lt hn
      unfold P.wp
      rw [letterDateTime_value hs h1 h2 h3 n b tail e a [] hb htl]
      exact ⟨rfl, .inl ⟨rfl, rfl⟩⟩
    rcases hsep with hs | hs | rfl
    · exact letter (.inl hs)
    · exact letter (.inr hs)
    · exact date (reads_tomlDateTime h0) (.inr ⟨v, h0, by simp⟩)
  | array => exact absurd rfl ha
  | emptyTable => exact absurd rfl ht
  | table => exact absurd rfl ht

/-! ### texts -/

theorem kept_head {e : Str} (h : KeptValue e) : ∃ c r, e = c :: r ∧ ¬ NoStart c := by
  cases h with
  | scalar _ v h => exact (reads_text h).head
  | array => exact ⟨91, _, rfl, by unfold NoStart; simp [isWs, isSpaces, isNl]⟩
  | emptyTable => exact ⟨123, _, rfl, by unfold NoStart; simp [isWs, isSpaces, isNl]⟩
  | table => exact ⟨123, _, rfl, by unfold NoStart; simp [isWs, isSpaces, isNl]⟩

theorem kept_noSep {e : Str} (h : KeptValue e) (t : Str) : ∀ c r, e ++ t = c :: r → isKvSep c = false := by
  obtain ⟨d, r, rfl, hd⟩ := kept_head h
  intro c r' he
  cases he
  obtain ⟨h1, _, _, _, h5, _⟩ := notWs_of_no hd
  simp only [isWs, Bool.or_eq_false_iff] at h1
  simp only [isSpaces, Bool.or_eq_false_iff] at h1
  simp [isKvSep, h5, h1.1.1, h1.1.2]

theorem elements_mem {p : Bool} {s : Str} : KeptElements p s → 93 ∈ s
  | .close p => by simp
  | .blank p c s hc h => List.mem_cons_of_mem _ (elements_mem h)
  | .newline p nl s hn h => List.mem_append_right _ (elements_mem h)
  | .comment p cm nl s hc hn h => List.mem_cons_of_mem _ (List.mem_append_right _ (List.mem_append_right _ (elements_mem h)))
  | .comma s h => List.mem_cons_of_mem _ (elements_mem h)
  | .elem e s he hd h => List.mem_append_right _ (elements_mem h)

theorem elements_drop1 {p : Bool} {c : Chr} {t : Str} (hc : isWs c = true) (h : KeptElements p (c :: t)) : KeptElements p t := by
  generalize hx : c :: t = x at h
  cases h with
  | close => cases hx; cases hc
  | blank _ _ _ _ h => cases hx; exact h
  | newline _ nl _ hn h =>
    rcases hn with rfl | rfl
    · cases hx; exact h
    · cases hx; exact .newline _ [10] _ (.inl rfl) h
  | comment => cases hx; cases hc
  | comma => cases hx; cases hc
  | elem e _ he =>
    obtain ⟨d, r, rfl, hd⟩ := kept_head he
    cases hx
    exact absurd (.inl hc) hd

theorem elements_dropWs {p : Bool} {t : Str} (h : KeptElements p t) : KeptElements p (t.dropWhile isWs) := by
  induction t with
  | nil => exact h
  | cons c t ih =>
    rw [List.dropWhile_cons]
    split
    · rename_i hc
      exact ih (elements_drop1 hc h)
    · exact h

/-- after an element: spaces, then something that ends a value -/
theorem elements_split {t : Str} (h : KeptElements true t) : ∃ b t', t = b ++ t' ∧ Blank b ∧ DateEnds t' ∧ t' ≠ [] := by
  have hm := elements_mem h
  refine ⟨t.takeWhile (· == 32), t.dropWhile (· == 32), (List.takeWhile_append_dropWhile).symm, blank_split t, ?_⟩
  have h2 : KeptElements true (t.dropWhile (· == 32)) := by
    clear hm
    induction t with
    | nil => exact h
    | cons c t ih =>
      rw [List.dropWhile_cons]
      split
      · rename_i hc
        have : c = 32 := by simpa using hc
        subst this
        exact ih (elements_drop1 rfl h)
      · exact h
  have hns : ∀ c r, t.dropWhile (· == 32) = c :: r → c ≠ 32 := by
    intro c r h0
    have := List.head?_dropWhile_not (· == 32) t
    rw [h0] at this
    simpa using this
  generalize t.dropWhile (· == 32) = x at h2 hns
  have hne : x ≠ [] := by
    have := elements_mem h2
    rintro rfl; cases this
  refine ⟨?_, hne⟩
  cases h2 with
  | close => exact .inr ⟨93, [], rfl, rfl⟩
  | blank _ c s hc h =>
    rcases hc with rfl | rfl
    · exact absurd rfl (hns 32 _ rfl)
    · exact .inr ⟨9, _, rfl, rfl⟩
  | newline _ nl s hn h =>
    rcases hn with rfl | rfl
    · exact .inr ⟨10, _, rfl, rfl⟩
    · exact .inr ⟨13, _, rfl, rfl⟩
  | comment => exact .inr ⟨35, _, rfl, rfl⟩
  | comma => exact .inr ⟨44, _, rfl, rfl⟩

/-- a key without the blanks before it -/
theorem dotted_lead {H : Str} {q : List Str} (h : DottedText H q) : ∃ ind H' c r, H = ind ++ H' ∧ Spaces ind ∧ DottedText H' q ∧
    H' = c :: r ∧ isSpTabCr c = false ∧ c ≠ 125 ∧ c ≠ 44 ∧ c ≠ 10 ∧ c ≠ 35 ∧ c ≠ 91 := by
  have key : ∀ s k : Str, KeyText s k → ∃ c r, s = c :: r ∧ isSpTabCr c = false ∧ c ≠ 125 ∧ c ≠ 44 ∧ c ≠ 10 ∧ c ≠ 35 ∧ c ≠ 91 := by
    intro s k hk
    cases hk with
    | bare _ hne hb =>
      obtain ⟨c, s', rfl⟩ := List.exists_cons_of_ne_nil hne
      obtain ⟨q1, q2, q3, q4, q5, q6, _⟩ := bare_head (bareChar_code (hb c (by simp)))
      exact ⟨c, _, rfl, q1, q2, q3, q4, q5, q6⟩
    | basic => exact ⟨34, _, rfl, rfl, by omega, by omega, by omega, by omega, by omega⟩
    | literal => exact ⟨39, _, rfl, rfl, by omega, by omega, by omega, by omega, by omega⟩
  cases h with
  | one b1 s k b2 h1 hk h2 =>
    obtain ⟨c, r, rfl, hc⟩ := key s k hk
    exact ⟨b1, _, c, r ++ b2, rfl, blanks_spaces h1, .one [] _ k b2 (fun c hc => by cases hc) hk h2, rfl, hc⟩
  | more b1 s k b2 r ks h1 hk h2 h =>
    obtain ⟨c, r', rfl, hc⟩ := key s k hk
    exact ⟨b1, _, c, r' ++ (b2 ++ 46 :: r), rfl, blanks_spaces h1, .more [] _ k b2 r ks (fun c hc => by cases hc) hk h2 h, rfl, hc⟩

/-- key and separator -/
theorem kv_dotted {H : Str} {q : List Str} (hH : DottedText H q) {sp X : Str} (hs : Spaces sp)
    (hX : ∀ c r, X = c :: r → isKvSep c = false) (n : Nat) (e : Str) (a : List Key) (l : List Loss) :
    ∃ K ind, ∀ pc, parseKeyValue (n + 1) pc ⟨H ++ 61 :: (sp ++ X), e, a, l⟩ = (do
        let val ← parseValue n
        let t := val.trivia
        if pc then
          let (cws, comment, trail) ← parseCommentTrail true
          note (!t.commentWs.isEmpty && !cws.isEmpty) .dateWs
          return (K, val.setTrivia ⟨ind, if t.commentWs.isEmpty then cws else t.commentWs, comment, trail⟩)
        else return (K, val.setTrivia { t with indent := ind, trail := [] })) ⟨X, 61 :: sp, a, l⟩ := by
  obtain ⟨ind, H', c, r, rfl, hi, hH', rfl, hc, _⟩ := dotted_lead hH
  have hcs : isSpaces c = false := by
    simp only [isSpTabCr, Bool.or_eq_false_iff] at hc
    simp [isSpaces, hc.1]
  have hql := dotted_length hH'
  obtain ⟨K, hK, hsep, hp⟩ := parseKey_dottedText hH' (d := 61) (.inr rfl) ((c :: r ++ 61 :: (sp ++ X)).length + 1) (by simp at hql ⊢; omega)
  obtain ⟨e', h5⟩ := hp (sp ++ X) ind a l
  refine ⟨K.setSep (K.sep ++ 61 :: sp), ind, fun pc => ?_⟩
  have t1 : (ind ++ (c :: r ++ 61 :: (sp ++ X))).takeWhile isSpaces = ind := takeWhile_append_stop hi hcs _
  have t2 : (ind ++ (c :: r ++ 61 :: (sp ++ X))).dropWhile isSpaces = c :: r ++ 61 :: (sp ++ X) := dropWhile_append_stop hi hcs _
  rw [parseKeyValue, List.append_assoc]
  simp only [mark_bind, skip_bind, extract_bind, t1, t2, List.nil_append]
  rw [P.bind_def]
  unfold parseKeyHere
  rw [getSt_bind, h5]
  dsimp only
  rw [P.bind_def, parseSep_reads hs hX]

/-! ### the induction -/

theorem appErr_other {e : Err} (h : AppErr e) : e.isUnexpectedChar = false := by
  rcases h with rfl | rfl | rfl | rfl <;> rfl

theorem addWs_hush {c : Cont} (hc : c.Good PW) (raw : Str) (st : St) : (addWs c raw).wp (fun c' s => s = st ∧ c'.Good PW)
    (fun e _ => e.isUnexpectedChar = false) st := by
  unfold addWs
  refine wp_ite (fun _ => ⟨rfl, hc⟩) fun _ => wp_bind (wp_lift (fun r hr => ?_) fun e he => ?_)
  · exact ⟨rfl, append_good closed_PW hc (v := .ws raw false) trivial hr⟩
  · exact appErr_other (append_err hc (by simp) (v := .ws raw false) trivial he)

theorem wp_move {α : Type} {m m' : P α} {Q : α → St → Prop} {E : Err → St → Prop} {st st' : St} (he : m st = m' st')
    (h : m'.wp Q E st') : m.wp Q E st := by
  unfold P.wp at *; rw [he]; exact h

theorem parseValue_bracket (n : Nat) (r e : Str) (a : List Key) (l : List Loss) (hr : r ≠ []) : parseValue (n + 1) ⟨91 :: r, e, a, l⟩ = (do
    let elems ← arrayLoop n false []
    return .array (groupValues elems) {} false : P Item) ⟨r, [91], a, l⟩ := by
  rw [parseValue, mark_bind, getSt_bind, St.cur_cons, if_neg (by omega), if_neg (by omega), if_neg (by omega),
    if_neg (by omega), if_pos rfl, stepE_bind_cons' _ _ _ _ _ _ hr]
  rfl

theorem parseValue_brace (n : Nat) (r e : Str) (a : List Key) (l : List Loss) (hr : r ≠ []) : parseValue (n + 1) ⟨123 :: r, e, a, l⟩ = (do
    let c ← inlineParse n none (.empty true)
    return .inline c {} false : P Item) ⟨r, [123], a, l⟩ := by
  rw [parseValue, mark_bind, getSt_bind, St.cur_cons, if_neg (by omega), if_neg (by omega), if_neg (by omega),
    if_neg (by omega), if_neg (by omega), if_pos rfl, stepE_bind_cons' _ _ _ _ _ _ hr]
  rfl

/-- what the value parser does with a kept value and the blanks after it -/
def HushV (e b tail : Str) (v : Item) (s : St) : Prop :=
  s.loss = [] ∧ ((v.trivia.commentWs = [] ∧ s.rest = b ++ tail) ∨ (SpacedDate e ∧ v.trivia.commentWs = b ∧ s.rest = tail))

/-- no failure that `_parse_array` catches -/
abbrev Caught (e : Err) (_ : St) : Prop := e.isUnexpectedChar = false

/-- the text of an inline table after a part of it -/
def InlineRest (tc : Option Bool) (s : Str) : Prop :=
  (tc ≠ some false ∧ KeptPairs s) ∨ (tc ≠ some true ∧ ∃ b, Blanks b ∧ s = b ++ [125])

theorem hush : ∀ n,
    (∀ e b tail x a, KeptValue e → Blank b → DateEnds tail → 3 * (e ++ (b ++ tail)).length + 1 ≤ n →
      (parseValue n).wp (HushV e b tail) Caught ⟨e ++ (b ++ tail), x, a, []⟩) ∧
    (∀ p s tail elems x a, KeptElements p s → 3 * (s ++ tail).length + 2 ≤ n →
      (arrayLoop n p elems).wp (fun _ st => st.loss = [] ∧ st.rest = tail) Caught ⟨s ++ tail, x, a, []⟩) ∧
    (∀ tc s tail c x a, InlineRest tc s → c.Good PW → 3 * (s ++ tail).length + 3 ≤ n →
      (inlineParse n tc c).wp (fun _ st => st.loss = [] ∧ st.rest = tail) Caught ⟨s ++ tail, x, a, []⟩) ∧
    (∀ H path b3 e b tail x a, DottedText H path → Blanks b3 → KeptValue e → Blank b → DateEnds tail → (SpacedDate e → b = []) →
      3 * (H ++ 61 :: (b3 ++ (e ++ (b ++ tail)))).length + 2 ≤ n →
      (parseKeyValue n false).wp (fun p st => st.loss = [] ∧ p.2.trivia.commentWs = [] ∧ st.rest = b ++ tail) Caught
        ⟨H ++ 61 :: (b3 ++ (e ++ (b ++ tail))), x, a, []⟩) := by
  intro n
  induction n with
  | zero =>
    refine ⟨?_, ?_, ?_, ?_⟩
    all_goals intros; exact rfl
  | succ n ih =>
    obtain ⟨ihV, ihA, ihI, ihK⟩ := ih
    refine ⟨?_, ?_, ?_, ?_⟩
    · intro e b tail x a he hb ht hn
      cases he with
      | scalar _ v h ha h2 => exact wp_mono (scalar_hush h ha h2 (n + 1) b tail x a hb ht (by simp at hn ⊢; omega)) (fun _ _ h => h) fun _ _ h => h.elim
      | array s h =>
        have hne : s ++ (b ++ tail) ≠ [] := by
          have := elements_mem h
          intro h0
          rw [(List.append_eq_nil_iff.1 h0).1] at this; cases this
        refine wp_move (parseValue_bracket n _ x a [] hne) ?_
        refine wp_bind (wp_mono (ihA false s (b ++ tail) [] [91] a h (by simp at hn ⊢; omega)) ?_ fun _ _ h => h)
        rintro l st ⟨h1, h2⟩
        exact ⟨h1, .inl ⟨rfl, h2⟩⟩
      | emptyTable w hw =>
        have hne : w ++ [125] ++ (b ++ tail) ≠ [] := by simp
        refine wp_move (parseValue_brace n _ x a [] hne) ?_
        refine wp_bind (wp_mono (ihI none (w ++ [125]) (b ++ tail) (.empty true) [123] a (.inr ⟨by simp, w, hw, rfl⟩) (Cont.good_empty closed_PW)
          (by simp at hn ⊢; omega)) ?_ fun _ _ h => h)
        rintro l st ⟨h1, h2⟩
        exact ⟨h1, .inl ⟨rfl, h2⟩⟩
      | table s h =>
        have hne : s ++ (b ++ tail) ≠ [] := by
          cases h <;> simp
        refine wp_move (parseValue_brace n _ x a [] hne) ?_
        refine wp_bind (wp_mono (ihI none s (b ++ tail) (.empty true) [123] a (.inl ⟨by simp, h⟩) (Cont.good_empty closed_PW)
          (by simp at hn ⊢; omega)) ?_ fun _ _ h => h)
        rintro l st ⟨h1, h2⟩
        exact ⟨h1, .inl ⟨rfl, h2⟩⟩
    · intro p s tail elems x a hs hn
      obtain ⟨s1, s2, s3⟩ := span_stop (tail := tail) (p := isWs) (elements_mem hs) rfl
      have hd := elements_dropWs hs
      have hlen : (s.takeWhile isWs).length + (s.dropWhile isWs).length = s.length := by
        rw [← List.length_append, List.takeWhile_append_dropWhile]
      have hns : ∀ c r, s.dropWhile isWs = c :: r → isWs c = false := by
        intro c r h0
        have := List.head?_dropWhile_not isWs s
        rw [h0] at this
        simpa using this
      unfold arrayLoop
      refine wp_bind (wp_getSt (wp_bind (wp_skip (wp_bind (wp_getSt ?_)))))
      dsimp only
      rw [s1, s2]
      revert hd hlen hns s3
      generalize s.takeWhile isWs = ind
      generalize s.dropWhile isWs = y
      intro s3 hd hlen hns
      simp only [List.length_append] at hn
      have go : ∀ it e', ind ≠ [] → (arrayLoop n p (elems ++ [it])).wp (fun _ st => st.loss = [] ∧ st.rest = tail) Caught
          ⟨y ++ tail, e', a, []⟩ := by
        intro it e' hne
        have := List.length_pos_iff.2 hne
        exact ihA p y tail _ e' a hd (by simp only [List.length_append]; omega)
      refine wp_ite (fun h => go _ _ ?_) fun _ => wp_ite (fun h35 => ?_) fun h35 => wp_ite (fun h => go _ _ ?_) fun hemp => ?_
      · rintro rfl; cases h
      · cases hd with
        | close => cases h35
        | blank _ c s hc =>
          have h1 := hns c s rfl
          rcases hc with rfl | rfl <;> cases h1
        | newline _ nl s hn =>
          rcases hn with rfl | rfl
          · cases hns 10 s rfl
          · cases hns 13 (10 :: s) rfl
        | comment _ cm nl s hc hnl h =>
          have hs : ∀ z ∈ cm, isCommentChar z = true := fun z hz => notControl_comment (hc z hz)
          simp only [List.length_cons, List.length_append] at hlen
          have hrec := fun e' it => ihA p (nl ++ s) tail (elems ++ [it]) e' a (.newline p nl s hnl h) (by simp only [List.length_append]; omega)
          rcases hnl with rfl | rfl
          · rw [show 35 :: (cm ++ ([10] ++ s)) ++ tail = 35 :: (cm ++ 10 :: (s ++ tail)) by simp]
            refine wp_bind ?_
            unfold P.wp
            rw [comment_in_array hs rfl]
            exact hrec _ _
          · rw [show 35 :: (cm ++ ([13, 10] ++ s)) ++ tail = 35 :: (cm ++ 13 :: (10 :: (s ++ tail))) by simp]
            refine wp_bind ?_
            unfold P.wp
            rw [comment_in_array hs rfl]
            exact hrec _ _
        | comma => cases h35
        | elem e _ he =>
          obtain ⟨d, r, rfl, hd'⟩ := kept_head he
          exact absurd (show d = 35 from h35) (notWs_of_no hd').2.1
      · rintro rfl; cases h
      · have hi : ind = [] := by simpa using hemp
        subst hi
        simp only [List.length_nil, Nat.zero_add] at hlen
        cases hd with
        | close =>
          refine wp_ite (fun _ => wp_ite (fun h => by cases h) fun _ => wp_ite (fun _ => ?_) fun h => absurd rfl h) fun _ => ?_
          · exact wp_bind (wp_step ⟨rfl, rfl⟩)
          · cases n with
            | zero => exact rfl
            | succ n =>
              refine wp_congr ?_ (wp_match (m := parseValue (n + 1)) (f := fun v => do
                  note (!v.trivia.commentWs.isEmpty) .dateWs
                  arrayLoop (n + 1) true (elems ++ [v])) (g := fun st0 e st1 =>
                    if e.isUnexpectedChar then
                      if st1.cur = 93 then (do
                        note (st1.rest.length != st0.rest.length) .swallowed
                        step
                        return elems) st1
                      else fail .unexpectedChar st1
                    else .err e st1) ?_)
              · rcases parseValue (n + 1) _ with ⟨v, s1⟩ | ⟨e, s1⟩ <;> rfl
              unfold P.wp
              rw [show [93] ++ tail = 93 :: tail from rfl, parseValue_nostart n tail _ a [] (c := 93) (by unfold NoStart; omega)]
              simp [Err.isUnexpectedChar, P.bind_def, note]
        | blank _ c s hc =>
          have h1 := hns c s rfl
          rcases hc with rfl | rfl <;> cases h1
        | newline _ nl s hn =>
          rcases hn with rfl | rfl
          · cases hns 10 s rfl
          · cases hns 13 (10 :: s) rfl
        | comment => exact absurd rfl h35
        | comma s h =>
          have hne : s ++ tail ≠ [] := by
            have := elements_mem h
            intro h0
            rw [(List.append_eq_nil_iff.1 h0).1] at this; cases this
          refine wp_ite (fun _ => wp_ite (fun _ => ?_) fun h => absurd rfl h) fun h => absurd rfl h
          refine wp_move (stepE_bind_cons' _ _ _ _ _ _ hne) ?_
          simp only [List.length_cons] at hlen
          exact ihA false s tail _ _ a h (by simp only [List.length_append]; omega)
        | elem e s he hd h =>
          refine wp_ite (fun h => by cases h) fun _ => ?_
          obtain ⟨b, t', rfl, hb, hde, hne⟩ := elements_split h
          have hb0 : SpacedDate e → b = [] := by
            intro hsd
            cases b with
            | nil => rfl
            | cons c b =>
              have := hb c (by simp)
              subst this
              exact absurd rfl (hd hsd)
          have hde' : DateEnds (t' ++ tail) := by
            rcases hde with h0 | ⟨d, r, h0, hd0⟩
            · exact absurd h0 hne
            · exact .inr ⟨d, r ++ tail, by rw [h0]; rfl, hd0⟩
          obtain ⟨d, r, hd', hns'⟩ := kept_head he
          have hel : 0 < e.length := by rw [hd']; simp
          simp only [List.length_append] at hlen
          rw [show e ++ (b ++ t') ++ tail = e ++ (b ++ (t' ++ tail)) by simp]
          refine wp_congr ?_ (wp_match (m := parseValue n) (f := fun v => do
              note (!v.trivia.commentWs.isEmpty) .dateWs
              arrayLoop n true (elems ++ [v])) (g := fun st0 e st1 =>
                if e.isUnexpectedChar then
                  if st1.cur = 93 then (do
                    note (st1.rest.length != st0.rest.length) .swallowed
                    step
                    return elems) st1
                  else fail .unexpectedChar st1
                else .err e st1) ?_)
          · rcases parseValue n _ with ⟨v, s1⟩ | ⟨e, s1⟩ <;> rfl
          refine wp_mono (ihV e b (t' ++ tail) _ a he hb hde' (by simp only [List.length_append]; omega)) ?_ ?_
          · rintro v s1 ⟨h1, h2⟩
            have hcw : v.trivia.commentWs = [] ∧ s1.rest = b ++ (t' ++ tail) := by
              rcases h2 with h | ⟨hd', h5, h6⟩
              · exact h
              · have := hb0 hd'
                subst this
                exact ⟨h5, h6⟩
            obtain ⟨hc1, hc2⟩ := hcw
            refine wp_bind ?_
            rw [hc1]
            obtain ⟨r1, e1, a1, l1⟩ := s1
            dsimp only at h1 hc2
            subst h1 hc2
            refine wp_note ?_
            show P.wp _ _ _ ⟨b ++ (t' ++ tail), e1, a1, []⟩
            rw [show b ++ (t' ++ tail) = (b ++ t') ++ tail by simp]
            exact ihA true (b ++ t') tail _ e1 a1 h (by simp only [List.length_append]; omega)
          · intro e1 s1 h1
            exact wp_congr (m' := raise e1) (if_neg (by rw [h1]; decide)) h1
    · intro tc s tail c x a hs hc hn
      unfold inlineParse
      refine wp_bind (wp_getSt (wp_bind (wp_skip (wp_bind ?_))))
      dsimp only
      rcases hs with ⟨htc, hs⟩ | ⟨htc, b, hb, rfl⟩
      · -- a pair
        have pair : ∀ H path b3 e b t, DottedText H path → Blanks b3 → KeptValue e → Blank b → DateEnds t → (SpacedDate e → b = []) →
            s ++ tail = H ++ 61 :: (b3 ++ (e ++ (b ++ t))) →
            (∀ c2 s2, c2.Good PW → s2.loss = [] → s2.rest = b ++ t → P.wp (do
              let st ← getSt
              let raw := st.rest.takeWhile isSpaces
              skip isSpaces
              let c ← addWs c2 raw
              let st ← getSt
              note false .dateWs
              if st.cur = 44 then
                note (!raw.isEmpty) .inlineWs
                stepE
                inlineParse n (some true) c
              else inlineParse n (some false) c) (fun _ st => st.loss = [] ∧ st.rest = tail) Caught s2) →
            P.wp (addWs c ((s ++ tail).takeWhile isSpaces)) (fun c s => P.wp (do
              let st ← getSt
              if tc != some true && st.cur = 125 then
                step
                return c
              else if tc = some false || (tc = none && st.cur = 44) then fail .unexpectedChar
              else if tc = some true && (st.cur = 125 || st.cur = 44) then fail .unexpectedChar
              else
                let (key, val) ← parseKeyValue n false
                let r ← lift (Cont.append true c (some key) val)
                note r.2 .reordered
                let st ← getSt
                let raw := st.rest.takeWhile isSpaces
                skip isSpaces
                let c ← addWs r.1 raw
                let st ← getSt
                note (!val.trivia.commentWs.isEmpty) .dateWs
                if st.cur = 44 then
                  note (!raw.isEmpty) .inlineWs
                  stepE
                  inlineParse n (some true) c
                else inlineParse n (some false) c) (fun _ st => st.loss = [] ∧ st.rest = tail) Caught s) Caught
              ⟨(s ++ tail).dropWhile isSpaces, x ++ (s ++ tail).takeWhile isSpaces, a, []⟩ := by
          intro H path b3 e b t hH h3 he hb ht hd hst hk
          obtain ⟨ind, H', d, r, rfl, hi, hH', rfl, hdc, d125, d44, _⟩ := dotted_lead hH
          have hds : isSpaces d = false := by
            simp only [isSpTabCr, Bool.or_eq_false_iff] at hdc
            simp [isSpaces, hdc.1]
          have t2 : (s ++ tail).dropWhile isSpaces = d :: r ++ 61 :: (b3 ++ (e ++ (b ++ t))) := by
            rw [hst, List.append_assoc]; exact dropWhile_append_stop hi hds _
          have hl : (d :: r ++ 61 :: (b3 ++ (e ++ (b ++ t)))).length ≤ (s ++ tail).length := by
            rw [← t2]; exact (List.dropWhile_suffix _).length_le
          rw [t2]
          refine wp_mono (addWs_hush hc _ _) ?_ fun _ _ h => h
          rintro c1 s1 ⟨rfl, hc1⟩
          refine wp_bind (wp_getSt (wp_ite (fun h => ?_) fun _ => wp_ite (fun h => ?_) fun _ => wp_ite (fun h => ?_) fun _ => ?_))
          · exfalso
            simp [St.cur, d125] at h
          · exfalso
            simp [St.cur, d44] at h
            exact htc h
          · exfalso
            simp [St.cur, d44, d125] at h
          have hst2 : Still (d :: r ++ 61 :: (b3 ++ (e ++ (b ++ t)))) ⟨d :: r ++ 61 :: (b3 ++ (e ++ (b ++ t))), x ++ (s ++ tail).takeWhile isSpaces, a, []⟩ :=
            ⟨List.suffix_refl _, rfl⟩
          refine wp_bind (wp_mono (wp_both (hst2.add (ihK (d :: r) path b3 e b t _ a hH' h3 he hb ht hd (by omega)) ((value_keeps n).2.2.2 _ false))
            ((value_does n).2.2.2 _ false (by show 3 * (d :: r ++ 61 :: (b3 ++ (e ++ (b ++ t)))).length + 2 ≤ n; omega))) ?_ fun _ _ h => h.1)
          rintro ⟨key, val⟩ s2 ⟨⟨h1, ⟨h2, h3⟩, k, u, sep, hpair⟩, g1, g2, g3, g4⟩
          refine wp_bind (wp_lift (fun r hr => ?_) fun e he => ?_)
          · obtain ⟨c2, mv⟩ := r
            obtain ⟨en, _, hb2, hp2, hmv⟩ := append_value ((Cont.good_iff _).1 hc1).1.parsed hpair.simple hr
            have hc2 := append_good closed_PW hc1 g4.2 hr
            refine wp_bind (h1.note hmv ?_)
            have := hk c2 s2 hc2 h1.loss h3
            have h2 : val.trivia.commentWs = [] := h2
            rw [h2]
            exact this
          · exact appErr_other (append_err hc1 (by rintro k hk; cases hk; exact g4.1) g4.2 he)
        cases hs with
        | last key path b3 e b4 hk h3 he h4 hd =>
          obtain ⟨b1, b2, rfl, hb1, hb2, hb3⟩ := spaces_split (blanks_spaces h4)
          have hend : DateEnds (b2 ++ 125 :: tail) := by
            rcases hb3 with rfl | ⟨r, rfl⟩
            · exact .inr ⟨125, _, rfl, rfl⟩
            · exact .inr ⟨9, _, rfl, rfl⟩
          have hb0 : SpacedDate e → b1 = [] := by
            intro hsd
            cases b1 with
            | nil => rfl
            | cons c b =>
              have := hb1 c (by simp)
              subst this
              exact absurd rfl (hd hsd)
          refine pair key path b3 e b1 (b2 ++ 125 :: tail) hk h3 he hb1 hend hb0 (by simp) ?_
          intro c2 s2 hc2 hl hr
          refine wp_bind (wp_getSt (wp_bind (wp_skip (wp_bind ?_))))
          have t2 : s2.rest.dropWhile isSpaces = 125 :: tail := by
            have h125 : isSpaces 125 = false := rfl
            rw [hr, ← List.append_assoc]; exact dropWhile_append_stop (blanks_spaces h4) h125 _
          rw [t2]
          refine wp_mono (addWs_hush hc2 _ _) ?_ fun _ _ h => h
          rintro c3 s3 ⟨rfl, hc3⟩
          refine wp_bind (wp_getSt (wp_bind (wp_note (wp_ite (fun h => by cases h) fun _ => ?_))))
          obtain ⟨r2, e2, a2, l2⟩ := s2
          dsimp only at hl
          subst hl
          exact ihI (some false) [125] tail c3 _ a2 (.inr ⟨by simp, [], (fun c hc => by cases hc), rfl⟩) hc3
            (by simp at hn ⊢; omega)
        | more key path b3 e s' hk h3 he h =>
          refine pair key path b3 e [] (44 :: (s' ++ tail)) hk h3 he Blank.nil (.inr ⟨44, _, rfl, rfl⟩) (fun _ => rfl) (by simp) ?_
          intro c2 s2 hc2 hl hr
          rw [List.nil_append] at hr
          refine wp_bind (wp_getSt (wp_bind (wp_skip (wp_bind ?_))))
          have t1 : s2.rest.takeWhile isSpaces = [] := by rw [hr]; rfl
          have t2 : s2.rest.dropWhile isSpaces = 44 :: (s' ++ tail) := by rw [hr]; rfl
          rw [t1, t2]
          refine wp_mono (addWs_hush hc2 _ _) ?_ fun _ _ h => h
          rintro c3 s3 ⟨rfl, hc3⟩
          refine wp_bind (wp_getSt (wp_bind (wp_note (wp_ite (fun _ => ?_) fun h => absurd rfl h))))
          obtain ⟨r2, e2, a2, l2⟩ := s2
          dsimp only at hl
          subst hl
          have hne : s' ++ tail ≠ [] := by cases h <;> simp
          refine wp_bind (wp_note ?_)
          refine wp_move (stepE_bind_cons' _ _ _ _ _ _ hne) ?_
          exact ihI (some true) s' tail c3 _ a2 (.inl ⟨by simp, h⟩) hc3 (by simp at hn ⊢; omega)
      · -- the end
        have h125 : isSpaces 125 = false := rfl
        rw [show b ++ [125] ++ tail = b ++ 125 :: tail by simp, dropWhile_append_stop (blanks_spaces hb) h125]
        refine wp_mono (addWs_hush hc _ _) ?_ fun _ _ h => h
        rintro c1 s1 ⟨rfl, hc1⟩
        refine wp_bind (wp_getSt (wp_ite (fun _ => ?_) fun h => absurd ?_ h))
        · exact wp_bind (wp_step ⟨rfl, rfl⟩)
        · simp [htc, St.cur]
    · intro H path b3 e b tail x a hH h3 he hb ht hd hn
      obtain ⟨K, ind, hk⟩ := kv_dotted hH (blanks_spaces h3) (kept_noSep he (b ++ tail)) n x a []
      refine wp_move (hk false) (wp_bind ?_)
      have hst : Still (e ++ (b ++ tail)) ⟨e ++ (b ++ tail), 61 :: b3, a, []⟩ := ⟨List.suffix_refl _, rfl⟩
      refine wp_mono (hst.add (Q := HushV e b tail) (wp_mono (ihV e b tail (61 :: b3) a he hb ht (by simp at hn ⊢; omega))
        (fun _ _ h => ⟨h.1, h⟩) fun _ _ h => h) ((value_keeps n).1 _)) ?_ fun _ _ h => h
      rintro v s ⟨h1, ⟨h2, h3⟩, h4⟩
      refine wp_ite (fun h => by cases h) fun _ => ?_
      have hcw : v.trivia.commentWs = [] ∧ s.rest = b ++ tail := by
        rcases h3 with h | ⟨hd', h5, h6⟩
        · exact h
        · have := hd hd'
          subst this
          exact ⟨h5, h6⟩
      refine ⟨h2, ?_, hcw.2⟩
      show (v.setTrivia _).trivia.commentWs = []
      rw [setTrivia_triv h4.simple]
      exact hcw.1

end Tomlkit
