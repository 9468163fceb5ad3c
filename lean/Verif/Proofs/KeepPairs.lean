import Verif.Proofs.KeepInline
/-!
# What the parser keeps of values, arrays, inline tables and key-value pairs
-/
namespace Tomlkit

/-- the elements read so far of an array -/
structure ArrIs (prev : Bool) (elems : List Item) (rest : Str) : Prop where
  fit : fits false false elems
  clean : ∀ i ∈ elems, i.Clean
  comma : prev = true → (fitEnd false false elems).1 = false
  cmt : (fitEnd false false elems).2 = true → rest = [] ∨ ∃ c r, rest = c :: r ∧ isNl c = true

/-- the outcome of an array -/
def ArrEnd (st : St) (prev : Bool) (elems l : List Item) (s : St) : Prop :=
  ArrIs prev elems st.rest → ∃ w, Ate st s (w ++ [93]) ∧ fits false false l ∧ (∀ i ∈ l, i.Clean) ∧
    l.flatMap Item.asString = elems.flatMap Item.asString ++ w

/-- the entries read so far of an inline table: `T` is their text -/
structure InlIs (tc : Option Bool) (c : Cont) (T : Str) : Prop where
  clean : c.Clean
  pieces : ∀ e ∈ c.body, PieceOk e
  text : T = if tc = some false then full c.body else commaed c.body
  first : tc = none → anyKey c.body = false

/-- the outcome of an inline table -/
def InlEnd (st : St) (tc : Option Bool) (c c' : Cont) (s : St) : Prop :=
  ∀ T, InlIs tc c T → ∃ u, Ate st s (u ++ [125]) ∧ c'.Clean ∧ (∀ e ∈ c'.body, PieceOk e) ∧ full c'.body = T ++ u

/-- a key and a value as they are read -/
structure PairIs (st : St) (b : Bool) (p : Key × Item) (s : St) (key : Key) (u sep : Str) : Prop where
  keyIs : KeyIs key u
  fst : p.1 = key.setSep sep
  simple : p.2.isSimple = true
  clean : p.2.Clean
  text : Ate st s (p.2.trivia.indent ++ (u ++ lineTail sep p.2))
  indent : p.2.trivia.indent = st.rest.takeWhile isSpaces
  last : ∃ c, p.2.asString.getLast? = some c ∧ c ≠ 44 ∧ c ≠ 10
  bare : b = false → p.2.trivia.comment = [] ∧ p.2.trivia.trail = []

/-! ### white space of an inline table -/

/-- the white space entry, if any -/
def wsEntry (raw : Str) : List Entry := if raw.isEmpty then [] else [.mk none (.ws raw false)]

theorem addWs_keeps (c : Cont) (raw : Str) (st : St) :
    Keeps (addWs c raw) (fun c' s => s.rest = st.rest ∧ (c.parsed = true → c'.parsed = true ∧ c'.body = c.body ++ wsEntry raw)) st := by
  have h := Tr.refl st
  unfold Keeps addWs wsEntry
  refine wp_ite (fun he => h.ret fun _ => ⟨rfl, fun hp => ⟨hp, by rw [if_pos he, List.append_nil]⟩⟩) fun he => ?_
  refine wp_bind (h.lift fun a ha => ?_)
  refine h.ret fun _ => ⟨rfl, fun hp => ?_⟩
  rw [if_neg he]
  obtain ⟨h1, h2, _⟩ := append_ws hp rfl ha
  exact ⟨h2, h1⟩

theorem clean_snoc {c c' : Cont} (h : c.Clean) {l : List Entry} (hb : c'.body = c.body ++ l) (hp : c'.parsed = true)
    (hl : ∀ e ∈ l, e.Clean) : c'.Clean := by
  rw [Cont.clean_iff] at h ⊢
  refine ⟨hp, ?_⟩
  rw [hb]
  intro e he
  rcases List.mem_append.1 he with he | he
  · exact h.2 e he
  · exact hl e he

theorem ws_clean (raw : Str) : (Entry.mk none (.ws raw false)).Clean :=
  ⟨trivial, fun h => (by cases h), fun tb h => (by cases h)⟩

theorem wsEntry_clean (raw : Str) : ∀ e ∈ wsEntry raw, e.Clean := by
  unfold wsEntry
  split
  · simp
  · intro e he
    rw [List.mem_singleton] at he; subst he
    exact ws_clean raw

theorem wsEntry_piece {raw : Str} (h : ∀ c ∈ raw, c ≠ 44) : ∀ e ∈ wsEntry raw, PieceOk e := by
  unfold wsEntry
  split
  · simp
  · intro e he
    rw [List.mem_singleton] at he; subst he
    refine ⟨?_, fun h => by cases h⟩
    show raw.getLast? ≠ some 44
    intro hq
    exact h _ (List.mem_of_getLast? hq) rfl

theorem full_wsEntry (b : List Entry) (raw : Str) : full (b ++ wsEntry raw) = full b ++ raw := by
  unfold wsEntry
  split
  · rename_i h
    have : raw = [] := by simpa using h
    rw [this]; simp
  · exact full_ws b _

theorem commaed_wsEntry (b : List Entry) (raw : Str) : commaed (b ++ wsEntry raw) = commaed b ++ raw := by
  unfold wsEntry
  split
  · rename_i h
    have : raw = [] := by simpa using h
    rw [this]; simp
  · exact commaed_ws b _

theorem anyKey_wsEntry (b : List Entry) (raw : Str) : anyKey (b ++ wsEntry raw) = anyKey b := by
  rw [anyKey_append]
  unfold wsEntry
  split <;> simp [anyKey]

theorem InlIs.ws {tc : Option Bool} {c c' : Cont} {T raw : Str} (h : InlIs tc c T) (hp : c'.parsed = true)
    (hb : c'.body = c.body ++ wsEntry raw) (hr : ∀ c ∈ raw, c ≠ 44) : InlIs tc c' (T ++ raw) := by
  refine ⟨clean_snoc h.clean hb hp (wsEntry_clean raw), ?_, ?_, ?_⟩
  · rw [hb]
    intro e he
    rcases List.mem_append.1 he with he | he
    · exact h.pieces e he
    · exact wsEntry_piece hr e he
  · rw [hb, h.text]
    split
    · rw [full_wsEntry]
    · rw [commaed_wsEntry]
  · intro ht
    rw [hb, anyKey_wsEntry]; exact h.first ht

/-- reading a value into an inline table -/
theorem InlIs.pair {tc : Option Bool} {c c' : Cont} {T : Str} (h : InlIs tc c T) (htc : tc ≠ some false) {key : Key} {u sep : Str}
    {v : Item} {e : Entry} (hk : KeyIs key u) (hne : NewEntry (key.setSep sep) v e) (hv : v.isSimple = true) (hc : v.Clean)
    (hi : v.trivia.indent = []) (hw : v.trivia.commentWs = []) (hcm : v.trivia.comment = []) (ht : v.trivia.trail = [])
    (hl : ∃ c, v.asString.getLast? = some c ∧ c ≠ 44 ∧ c ≠ 10) (hb : c'.body = c.body ++ [e]) (hp : c'.parsed = true) :
    InlIs (some false) c' (T ++ (u ++ (sep ++ v.asString))) ∧ InlIs (some true) c' (T ++ (u ++ (sep ++ v.asString)) ++ [44]) := by
  have hpiece := hne.piece hk hv hc hi hw hcm ht
  have hkey : e.key.isSome = true := by
    obtain ⟨k, hk, _⟩ := hne.plain hv
    rw [hk]; rfl
  have hcl : c'.Clean := clean_snoc h.clean hb hp (by intro x hx; rw [List.mem_singleton] at hx; subst hx; exact hne.clean hv hc)
  have hps : ∀ e ∈ c'.body, PieceOk e := by
    rw [hb]
    intro x hx
    rcases List.mem_append.1 hx with hx | hx
    · exact h.pieces x hx
    · rw [List.mem_singleton] at hx; subst hx
      obtain ⟨ch, h1, h2⟩ := hl
      have hlast : (u ++ (sep ++ v.asString)).getLast? = some ch := getLast?_append_some (getLast?_append_some h1)
      refine ⟨?_, fun _ => ?_⟩
      · rw [hpiece, hlast]
        simpa using h2.1
      · rw [hpiece]
        intro h0; rw [h0] at hlast; cases hlast
  have hT : T = commaed c.body := by rw [h.text, if_neg htc]
  refine ⟨⟨hcl, hps, ?_, by simp⟩, ⟨hcl, hps, ?_, by simp⟩⟩
  · rw [if_pos rfl, hb, full_key _ _ hkey, hpiece, hT]
  · rw [if_neg (by simp), hb, commaed_key _ _ hkey, hpiece, hT]; simp

/-! ### elements of an array -/

theorem ArrIs.snoc {prev prev' : Bool} {elems : List Item} {rest rest' : Str} (h : ArrIs prev elems rest) {i : Item}
    (hf : fits (fitEnd false false elems).1 (fitEnd false false elems).2 [i]) (hi : i.Clean)
    (hc : prev' = true → (fitEnd (fitEnd false false elems).1 (fitEnd false false elems).2 [i]).1 = false)
    (hm : (fitEnd (fitEnd false false elems).1 (fitEnd false false elems).2 [i]).2 = true →
      rest' = [] ∨ ∃ c r, rest' = c :: r ∧ isNl c = true) : ArrIs prev' (elems ++ [i]) rest' := by
  refine ⟨fits_append _ _ _ _ h.fit hf, ?_, ?_, ?_⟩
  · intro x hx
    rcases List.mem_append.1 hx with hx | hx
    · exact h.clean x hx
    · rw [List.mem_singleton] at hx; subst hx; exact hi
  · rw [fitEnd_append]; exact hc
  · rw [fitEnd_append]; exact hm

theorem contains_false {s : Str} (h : ∀ c ∈ s, c ≠ 44) : s.contains 44 = false := by
  cases hc : s.contains 44
  · rfl
  · rw [List.contains_iff_mem] at hc
    exact absurd rfl (h _ hc)

theorem ArrIs.wsItem {prev : Bool} {elems : List Item} {rest : Str} (h : ArrIs prev elems rest) {s : Str}
    (hs : ∀ c ∈ s, c ≠ 44) (rest' : Str) : ArrIs prev (elems ++ [.ws s false]) rest' := by
  have hc := contains_false hs
  refine h.snoc ?_ trivial ?_ ?_
  · simp only [fits, hc, Bool.false_eq_true, if_false]
  · simp only [fitEnd, hc, Bool.false_eq_true, if_false, implies_true]
  · simp only [fitEnd, hc, Bool.false_eq_true, if_false, false_implies]

theorem ArrIs.valItem {prev : Bool} {elems : List Item} {rest : Str} (h : ArrIs prev elems rest) {v : Item} (hv : v.isSimple = true)
    (hc : v.Clean) (rest' : Str) : ArrIs true (elems ++ [v]) rest' := by
  have hf : ∀ a b, fits a b [v] := by intro a b; rw [fits_value v (isValue_simple hv)]; trivial
  have he : ∀ a b, fitEnd a b [v] = (false, false) := by intro a b; cases v <;> first | rfl | cases hv
  refine h.snoc (hf _ _) hc ?_ ?_
  · rw [he]; simp
  · rw [he]; simp

theorem ArrIs.noCmt {prev : Bool} {elems : List Item} {rest : Str} (h : ArrIs prev elems rest) {c : Chr} {r : Str}
    (hr : rest = c :: r) (hc : isNl c = false) : (fitEnd false false elems).2 = false := by
  rcases hf : (fitEnd false false elems).2 with _ | _
  · rfl
  · rcases h.cmt hf with h | ⟨c', r', h1, h2⟩
    · rw [h] at hr; cases hr
    · rw [h1] at hr; cases hr; rw [hc] at h2; cases h2

theorem ArrEnd.step {st s0 s : St} {prev prev' : Bool} {elems l : List Item} {i : Item} {x : Str} (hx : Ate st s0 x)
    (hi : i.asString = x) (ha : ArrIs prev elems st.rest → ArrIs prev' (elems ++ [i]) s0.rest)
    (h : ArrEnd s0 prev' (elems ++ [i]) l s) : ArrEnd st prev elems l s := by
  intro h0
  obtain ⟨w, h1, h2, h3, h4⟩ := h (ha h0)
  refine ⟨x ++ w, ?_, h2, h3, ?_⟩
  · rw [List.append_assoc]; exact ate_trans hx h1
  · rw [h4, ← hi]; simp

theorem isWs_ne {s : Str} : ∀ c ∈ s.takeWhile isWs, c ≠ 44 := takeWhile_ne (by decide)
theorem isSpaces_ne {s : Str} : ∀ c ∈ s.takeWhile isSpaces, c ≠ 44 := takeWhile_ne (by decide)

theorem takeWhile_dropWhile {p : Chr → Bool} (l : Str) : (l.dropWhile p).takeWhile p = [] := by
  induction l with
  | nil => rfl
  | cons a l ih =>
    rw [List.dropWhile_cons]
    split
    · exact ih
    · rename_i h
      rw [List.takeWhile_cons, if_neg h]

theorem value_keeps : ∀ n,
    (∀ st : St, Keeps (parseValue n) (ValIs st) st) ∧
    (∀ (st : St) (prev : Bool) (elems : List Item), Keeps (arrayLoop n prev elems) (ArrEnd st prev elems) st) ∧
    (∀ (st : St) (tc : Option Bool) (c : Cont), Keeps (inlineParse n tc c) (InlEnd st tc c) st) ∧
    (∀ (st : St) (b : Bool), Keeps (parseKeyValue n b) (fun p s => ∃ key u sep, PairIs st b p s key u sep) st) := by
  intro n
  induction n with
  | zero =>
    refine ⟨?_, ?_, ?_, ?_⟩
    · intro st; exact (Tr.refl st).raise
    · intro st _ _; exact (Tr.refl st).raise
    · intro st _ _; exact (Tr.refl st).raise
    · intro st _; exact (Tr.refl st).raise
  | succ n ih =>
    obtain ⟨ihV, ihA, ihI, ihK⟩ := ih
    refine ⟨?_, ?_, ?_, ?_⟩
    · intro st
      have h := Tr.refl st
      unfold Keeps parseValue
      refine wp_bind (h.mark fun s h hr hext _ => ?_)
      have h0 : Ate st s [] := ate_nil hr
      refine wp_bind (wp_getSt ?_)
      have hmv : ∀ a s', ValIs s a s' → ValIs st a s' := by
        intro a s' hv
        exact ⟨by have := ate_trans h0 hv.text; rwa [List.nil_append] at this, hv.comment, hv.clean, hv.simple, hv.last, hv.cws⟩
      have hstr : ∀ d, d.isMultiline = false → P.wp (restoring (parseString d)) (fun a s => Tr st s (ValIs st a s)) (ErrK st) s := by
        intro d hd
        refine wp_restoring (wp_mono (parseString_keeps d hd s) ?_ ?_)
        · intro a s' hc
          exact (h.trans hc).imp fun hf => hmv _ _ hf.2.val
        · intro e s' he
          exact ⟨h.loss.trans he.1, h.suf⟩
      refine wp_ite (fun _ => hstr _ rfl) fun _ => wp_ite (fun _ => hstr _ rfl) fun _ => wp_ite (fun _ => ?_) fun _ =>
        wp_ite (fun _ => ?_) fun _ => wp_ite (fun hc => ?_) fun _ => wp_ite (fun hc => ?_) fun _ =>
        wp_ite (fun hsp => ?_) fun _ => wp_ite (fun hd => ?_) fun _ => h.fail
      · exact h.last (parseBool_keeps _ _ _ rfl ⟨101, rfl, by decide⟩) fun a s' _ hv => hmv _ _ hv
      · exact h.last (parseBool_keeps _ _ _ rfl ⟨101, rfl, by decide⟩) fun a s' _ hv => hmv _ _ hv
      · refine wp_bind (h.stepE fun s1 h hr1 _ _ _ => ?_)
        have h1 := ate_trans h0 (ate_cur hc (by decide) hr1)
        refine wp_bind (h.call (ihA s1 _ _) fun l s2 h => ?_)
        refine h.ret fun hf => ?_
        obtain ⟨w, ha, hb, hcl, ht⟩ := hf.2 ⟨trivial, by simp, fun _ => rfl, fun h => by cases h⟩
        have hstr : (Item.array (groupValues l) {} false).asString = 91 :: (w ++ [93]) := by
          show [91] ++ groupsStr (groupValues l) ++ [93] = _
          rw [groupValues_text hb, ht]; rfl
        refine ⟨?_, rfl, ⟨⟨rfl, regroup _⟩, groupValues_clean hcl⟩, rfl, ⟨93, ?_, by decide⟩, (by intro c hc; cases hc)⟩
        · rw [hstr]
          have := ate_trans h1 ha
          simpa [Item.trivia] using this
        · rw [hstr]
          show ((91 :: w) ++ [93]).getLast? = _
          exact getLast?_append_some rfl
      · refine wp_bind (h.stepE fun s1 h hr1 _ _ _ => ?_)
        have h1 := ate_trans h0 (ate_cur hc (by decide) hr1)
        refine wp_bind (h.call (ihI s1 _ _) fun c s2 h => ?_)
        refine h.ret fun hf => ?_
        obtain ⟨w, ha, hcl, hps, ht⟩ := hf.2 [] ⟨⟨rfl, trivial⟩, fun e he => (by cases he), rfl, fun _ => rfl⟩
        have hstr : (Item.inline c {} false).asString = 123 :: (w ++ [125]) := by
          show c.inlineString false = _
          rw [inlineString_full hps, ht]; rfl
        refine ⟨?_, rfl, ⟨rfl, hcl⟩, rfl, ⟨125, ?_, by decide⟩, (by intro c hc; cases hc)⟩
        · rw [hstr]
          have := ate_trans h1 ha
          simpa [Item.trivia] using this
        · rw [hstr]
          show ((123 :: w) ++ [125]).getLast? = _
          exact getLast?_append_some rfl
      · -- a special number
        have hne : ∃ c r, s.rest = c :: r ∧ (!isValueEnd c) = true := by
          unfold startsSpecialNumber at hsp
          rcases hs : s.rest with _ | ⟨c, r⟩ <;> rw [hs] at hsp
          · exact absurd hsp (by decide)
          · refine ⟨c, r, rfl, ?_⟩
            by_cases hv : isValueEnd c = true
            · exfalso
              have hc : c ≠ 43 ∧ c ≠ 45 := by
                constructor <;> rintro rfl <;> revert hv <;> decide
              simp [hc.1, hc.2, hv] at hsp
            · simpa using hv
        obtain ⟨c, r, hs, hv⟩ := hne
        refine wp_bind (h.skip fun s1 h hr1 he1 _ => ?_)
        refine wp_bind (wp_extract ?_)
        have hate : Ate st s1 s1.ext := by
          rw [he1, hext, List.nil_append]
          exact ate_trans h0 (ate_skip hr1)
        have hlast : ∃ c, s1.ext.getLast? = some c ∧ c ≠ 44 ∧ c ≠ 10 := by
          rw [he1, hext, List.nil_append]
          refine takeWhile_last (by decide) (by decide) ?_
          rw [hs, List.takeWhile_cons, if_pos hv]; simp
        split
        · rename_i i hi
          obtain ⟨h1, h2, h3, h4⟩ := parseNumber_text hi
          exact h.ret fun _ => ⟨by rw [h1, h2, List.append_nil]; exact hate, by rw [h2], h3, h4, by rw [h1]; exact hlast, (by rw [h2]; intro c hc; cases hc)⟩
        · exact h.fail
      · exact h.last (parseDigits_keeps s hd hext) fun a s' _ hv => hmv _ _ hv
    · intro st prev elems
      have h := Tr.refl st
      unfold Keeps arrayLoop
      refine wp_bind (wp_getSt ?_)
      refine wp_bind (h.skip fun s h hr _ _ => ?_)
      have hind := ate_skip hr
      refine wp_bind (wp_getSt (wp_ite (fun _ => ?_) fun hnl => wp_ite (fun hc => ?_) fun _ => wp_ite (fun _ => ?_)
        fun he => ?_))
      · exact h.last (ihA s _ _) fun l s' _ ha => ha.step hind rfl fun h0 => h0.wsItem isWs_ne _
      · refine wp_bind (h.call (parseCommentTrail_array s hc) fun a s1 h => ?_)
        obtain ⟨cws, comment, trail⟩ := a
        refine h.last (ihA s1 _ _) fun l s' hf ha => ?_
        obtain ⟨_, h1, h2, h3, h4⟩ := hf
        have h1 : cws = [] := h1
        have h2 : trail = [] := h2
        subst h1 h2
        refine ha.step (x := st.rest.takeWhile isWs ++ comment) (ate_trans hind h3) ?_ ?_
        · show commentText _ = _
          simp [commentText]
        · intro h0
          obtain ⟨r, hsr⟩ := cur_cons hc (by decide)
          -- no pending comment: after one comes a new line
          have hcm : (fitEnd false false elems).2 = false := by
            rcases hf : (fitEnd false false elems).2 with _ | _
            · rfl
            · exfalso
              rcases h0.cmt hf with h5 | ⟨c, r', h5, h6⟩
              · rw [h5] at hr; rw [hr] at hsr; cases hsr
              · apply hnl
                rw [h5, List.takeWhile_cons]
                have : isWs c = true := by simp [isWs, h6]
                rw [this]
                simp [h6]
          refine h0.snoc ?_ trivial ?_ ?_
          · rw [hcm]; exact ⟨rfl, trivial⟩
          · exact h0.comma
          · intro _; exact h4
      · exact h.last (ihA s _ _) fun l s' _ ha => ha.step hind rfl fun h0 => h0.wsItem isWs_ne _
      · have he : st.rest.takeWhile isWs = [] := by simpa using he
        rw [he] at hind
        have hrs : s.rest = st.rest := by unfold Ate at hind; rw [hind]; rfl
        refine wp_ite (fun hprev => wp_ite (fun hc => ?_) fun _ => wp_ite (fun hc => ?_) fun _ => h.fail) fun _ => ?_
        · refine wp_bind (h.stepE fun s1 h hr1 _ _ _ => ?_)
          refine h.last (ihA s1 _ _) fun l s' _ ha => ?_
          refine ha.step (x := [44]) (ate_trans hind (ate_cur hc (by decide) hr1)) rfl fun h0 => ?_
          obtain ⟨r, hsr⟩ := cur_cons hc (by decide)
          have hcm := h0.noCmt (hrs ▸ hsr) (by decide)
          have hco := h0.comma hprev
          refine h0.snoc ?_ trivial (fun h => by cases h) ?_
          · rw [hcm, hco]; exact ⟨rfl, rfl, trivial⟩
          · intro hx
            have : (fitEnd (fitEnd false false elems).1 (fitEnd false false elems).2 [.ws [44] false]).2 = false := rfl
            rw [this] at hx; cases hx
        · refine wp_bind (h.step fun s1 h hr1 _ _ => h.ret fun _ => ?_)
          intro h0
          exact ⟨[], ate_trans hind (ate_cur hc (by decide) hr1), h0.fit, h0.clean, by simp⟩
        · refine wp_congr ?_ (wp_match (m := parseValue n) (f := fun v => do
              note (!v.trivia.commentWs.isEmpty) .dateWs
              arrayLoop n true (elems ++ [v])) (g := fun st0 e st1 =>
                if e.isUnexpectedChar then
                  if st1.cur = 93 then (do
                    note (st1.rest.length != st0.rest.length) .swallowed
                    step
                    return elems) st1
                  else fail .unexpectedChar st1
                else .err e st1) ?_)
          · rcases parseValue n s with ⟨v, s1⟩ | ⟨e, s1⟩ <;> rfl
          refine wp_mono (ihV s) ?_ ?_
          · intro v s1 hv
            have h := h.trans hv
            refine wp_bind (h.note fun s2 h hr2 _ _ => ?_)
            refine h.last (ihA s2 _ _) fun l s' hf ha => ?_
            obtain ⟨⟨_, hval⟩, hcw⟩ := hf
            have hcw : v.trivia.commentWs = [] := by simpa using hcw
            refine ha.step (x := v.asString) ?_ rfl fun h0 => h0.valItem hval.simple hval.clean _
            have := hval.text
            rw [hcw, List.append_nil] at this
            have h2 : Ate s1 s2 [] := ate_nil hr2
            have := ate_trans hind (ate_trans this h2)
            simpa using this
          · intro e s1 hv
            by_cases hu : e.isUnexpectedChar = true
            · by_cases hc : s1.cur = 93
              · refine wp_congr (m' := do
                  note (s1.rest.length != s.rest.length) .swallowed
                  step
                  return elems) ((if_pos hu).trans (if_pos hc)) ?_
                have h1 : Tr st s1 True := ⟨h.loss.trans hv.1, hv.2.trans h.suf, fun _ => trivial⟩
                refine wp_bind (h1.note fun s2 h hr2 _ _ => wp_bind (h.step fun s3 h hr3 _ _ => h.ret fun hf => ?_))
                intro h0
                have hlen : s1.rest.length = s.rest.length := by simpa using hf.2
                have hs1 : s1.rest = s.rest := hv.2.eq_of_length hlen
                have h12 : Ate s s2 [] := ate_nil (hr2.trans hs1)
                have hc2 : s2.cur = 93 := by unfold St.cur at hc ⊢; rw [hr2]; exact hc
                exact ⟨[], ate_trans hind (ate_trans h12 (ate_cur hc2 (by decide) hr3)), h0.fit, h0.clean, by simp⟩
              · exact wp_congr (m' := fail .unexpectedChar) ((if_pos hu).trans (if_neg hc))
                  ⟨h.loss.trans hv.1, hv.2.trans h.suf⟩
            · exact wp_congr (m' := raise e) (if_neg hu) (h.err hv)
    · intro st tc c
      have h := Tr.refl st
      unfold Keeps inlineParse
      refine wp_bind (wp_getSt ?_)
      refine wp_bind (h.skip fun s h hr _ _ => ?_)
      have hraw := ate_skip hr
      refine wp_bind (h.call (addWs_keeps c _ s) fun c1 s1 h => ?_)
      have hs1 : ∀ {T}, (c.parsed = true → c1.parsed = true ∧ c1.body = c.body ++ wsEntry (st.rest.takeWhile isSpaces)) →
          InlIs tc c T → InlIs tc c1 (T ++ st.rest.takeWhile isSpaces) := by
        intro T hx hi
        obtain ⟨hp, hb⟩ := hx ((Cont.clean_iff c).1 hi.clean).1
        exact hi.ws hp hb isSpaces_ne
      refine wp_bind (wp_getSt (wp_ite (fun hc => ?_) fun _ => wp_ite (fun _ => h.fail) fun hnf => wp_ite (fun _ => h.fail)
        fun _ => ?_))
      · refine wp_bind (h.step fun s2 h hr2 _ _ => h.ret fun hf => ?_)
        obtain ⟨_, hr1, hx⟩ := hf
        intro T hi
        simp only [Bool.and_eq_true, bne_iff_ne, ne_eq, decide_eq_true_eq] at hc
        have hi1 := hs1 hx hi
        refine ⟨st.rest.takeWhile isSpaces, ?_, hi1.clean, hi1.pieces, ?_⟩
        · have h1 : Ate s s1 [] := ate_nil hr1
          have := ate_trans hraw (ate_trans h1 (ate_cur hc.2 (by decide) hr2))
          simpa using this
        · rw [hi1.text]
          rcases tc with _ | _ | _
          · rw [if_neg (by simp), full_noKey (hi1.first rfl)]
          · rw [if_pos rfl]
          · exact absurd rfl hc.1
      · have hnf : tc ≠ some false := by rintro rfl; simp at hnf
        refine wp_bind (h.call (ihK s1 false) fun p s2 h => ?_)
        obtain ⟨key, val⟩ := p
        refine wp_bind (h.lift fun r hr' => ?_)
        obtain ⟨c2, mv⟩ := r
        refine wp_bind (h.note fun s3 h hr3 _ _ => ?_)
        refine wp_bind (wp_getSt ?_)
        refine wp_bind (h.skip fun s4 h hr4 _ _ => ?_)
        refine wp_bind (h.call (addWs_keeps c2 _ s4) fun c3 s5 h => ?_)
        refine wp_bind (wp_getSt ?_)
        refine wp_bind (h.note fun s6 h hr6 _ _ => ?_)
        -- the facts
        have hmain : ∀ {T}, InlIs tc c T →
            (((((True ∧ s1.rest = s.rest ∧ (c.parsed = true → c1.parsed = true ∧ c1.body = c.body ++ wsEntry (st.rest.takeWhile isSpaces))) ∧
              ∃ k u sep, PairIs s1 false (key, val) s2 k u sep) ∧ mv = false) ∧ s5.rest = s4.rest ∧
              (c2.parsed = true → c3.parsed = true ∧ c3.body = c2.body ++ wsEntry (s3.rest.takeWhile isSpaces))) ∧
              (!val.trivia.commentWs.isEmpty) = false) →
            ∃ x, Ate st s6 (x ++ s3.rest.takeWhile isSpaces) ∧ InlIs (some false) c3 (T ++ (x ++ s3.rest.takeWhile isSpaces)) ∧
              (s3.rest.takeWhile isSpaces = [] → InlIs (some true) c3 (T ++ x ++ [44])) := by
          intro T hi hf
          obtain ⟨⟨⟨⟨⟨_, hr1, hx⟩, k, u, sep, hpair⟩, _⟩, hr5, hx2⟩, hcw⟩ := hf
          have hi1 := hs1 hx hi
          have hcw : val.trivia.commentWs = [] := by simpa using hcw
          have hfst : key = k.setSep sep := hpair.fst
          have hin : val.trivia.indent = [] := by
            have h1 : val.trivia.indent = s1.rest.takeWhile isSpaces := hpair.indent
            rw [h1, hr1, hr]
            exact takeWhile_dropWhile _
          obtain ⟨hcm, htr⟩ := hpair.bare rfl
          rw [hfst] at hr'
          obtain ⟨e, hne, hb2, hp2, _⟩ := append_value ((Cont.clean_iff _).1 hi1.clean).1 hpair.simple hr'
          obtain ⟨hA, hB⟩ := hi1.pair hnf hpair.keyIs hne hpair.simple hpair.clean hin hcw hcm htr hpair.last hb2 hp2
          obtain ⟨hp3, hb3⟩ := hx2 hp2
          refine ⟨st.rest.takeWhile isSpaces ++ (u ++ (sep ++ val.asString)), ?_, ?_, ?_⟩
          · have h1 : Ate s s1 [] := ate_nil hr1
            have h2 : Ate s1 s2 (u ++ (sep ++ val.asString)) := by
              have := hpair.text
              simp only [hin, lineTail, simpleTail, hcw, hcm, htr, List.nil_append, List.append_nil] at this
              exact this
            have h3 : Ate s2 s3 [] := ate_nil hr3
            have h4 : Ate s3 s4 _ := ate_skip hr4
            have h5 : Ate s4 s6 [] := ate_nil (hr6.trans hr5)
            have := ate_trans hraw (ate_trans h1 (ate_trans h2 (ate_trans h3 (ate_trans h4 h5))))
            simpa using this
          · have := hA.ws hp3 hb3 isSpaces_ne
            simpa using this
          · intro he
            have := hB.ws (raw := []) hp3 (by rw [hb3, he]) (by simp)
            simpa using this
        refine wp_ite (fun hc => ?_) fun _ => ?_
        · refine wp_bind (h.note fun s7 h hr7 _ _ => ?_)
          refine wp_bind (h.stepE fun s8 h hr8 _ _ _ => ?_)
          refine h.last (ihI s8 _ _) fun c' s' hf hend => ?_
          intro T hi
          obtain ⟨x, hx1, hx2, hx3⟩ := hmain hi hf.1
          have he : s3.rest.takeWhile isSpaces = [] := by simpa using hf.2
          obtain ⟨u, h1, h2, h3, h4⟩ := hend _ (hx3 he)
          refine ⟨x ++ ([44] ++ u), ?_, h2, h3, by rw [h4]; simp⟩
          have hc7 : s7.cur = 44 := by unfold St.cur at hc ⊢; rw [hr7, hr6]; exact hc
          rw [he, List.append_nil] at hx1
          have h67 : Ate s6 s7 [] := ate_nil hr7
          have := ate_trans hx1 (ate_trans h67 (ate_trans (ate_cur hc7 (by decide) hr8) h1))
          simpa using this
        · refine h.last (ihI s6 _ _) fun c' s' hf hend => ?_
          intro T hi
          obtain ⟨x, hx1, hx2, _⟩ := hmain hi hf
          obtain ⟨u, h1, h2, h3, h4⟩ := hend _ hx2
          refine ⟨x ++ s3.rest.takeWhile isSpaces ++ u, ?_, h2, h3, by rw [h4]; simp⟩
          have := ate_trans hx1 h1
          simpa using this
    · intro st b
      have h := Tr.refl st
      unfold Keeps parseKeyValue
      refine wp_bind (h.mark fun s h hr he _ => ?_)
      refine wp_bind (h.skip fun s1 h hr1 he1 _ => ?_)
      have hind : Ate st s1 (st.rest.takeWhile isSpaces) := by
        have h0 : Ate st s [] := ate_nil hr
        have := ate_trans h0 (ate_skip hr1)
        rw [hr] at this; exact this
      have hext : s1.ext = st.rest.takeWhile isSpaces := by rw [he1, he, hr]; rfl
      refine wp_bind (wp_extract ?_)
      rw [hext]
      refine wp_bind (h.call (parseKeyHere_keeps s1) fun k s2 h => ?_)
      refine wp_bind (h.call (parseSep_keeps s2) fun sep s3 h => ?_)
      refine wp_bind (h.call (ihV s3) fun v s4 h => ?_)
      refine wp_ite (fun hb => ?_) fun hb => ?_
      · refine wp_bind (h.call (parseCommentTrail_keeps s4) fun a s5 h => ?_)
        obtain ⟨cws, comment, trail⟩ := a
        refine wp_bind (h.note fun s6 h hr6 _ _ => ?_)
        refine h.ret fun hf => ?_
        obtain ⟨⟨⟨⟨⟨_, u, hu, hk⟩, hsep⟩, hval⟩, htr, hcw, hcw2⟩, hn⟩ := hf
        have h56 : Ate s5 s6 [] := ate_nil hr6
        refine ⟨k, u, sep, hk, by rw [hk.sep]; rfl, isSimple_setTrivia hval.simple _, clean_setTrivia hval.clean hval.simple _, ?_, ?_, ?_, ?_⟩
        · simp only [lineTail, simpleTail, setTrivia_triv hval.simple, asString_setTrivia hval.clean hval.simple]
          have hall := ate_trans hind (ate_trans hu (ate_trans hsep (ate_trans hval.text (ate_trans htr h56))))
          have hcws : v.trivia.commentWs ++ cws = if v.trivia.commentWs.isEmpty then cws else v.trivia.commentWs := by
            split
            · rename_i he
              have : v.trivia.commentWs = [] := by simpa using he
              rw [this]; rfl
            · rename_i he
              simp only [he, Bool.not_false, Bool.true_and] at hn
              have : cws = [] := by simpa using hn
              rw [this, List.append_nil]
          rw [← hcws]
          simpa using hall
        · simp only [setTrivia_triv hval.simple]
        · rw [asString_setTrivia hval.clean hval.simple]; exact hval.last
        · intro h; rw [h] at hb; cases hb
      · refine h.ret fun hf => ?_
        obtain ⟨⟨⟨_, u, hu, hk⟩, hsep⟩, hval⟩ := hf
        refine ⟨k, u, sep, hk, by rw [hk.sep]; rfl, isSimple_setTrivia hval.simple _, clean_setTrivia hval.clean hval.simple _, ?_, ?_, ?_, ?_⟩
        · simp only [lineTail, simpleTail, setTrivia_triv hval.simple, asString_setTrivia hval.clean hval.simple, hval.comment]
          have hall := ate_trans hind (ate_trans hu (ate_trans hsep hval.text))
          simpa using hall
        · simp only [setTrivia_triv hval.simple]
        · rw [asString_setTrivia hval.clean hval.simple]; exact hval.last
        · intro _
          simp only [setTrivia_triv hval.simple]
          exact ⟨hval.comment, trivial⟩

end Tomlkit
