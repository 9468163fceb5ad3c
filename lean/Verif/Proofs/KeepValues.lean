import Verif.Proofs.EntryText
/-!
# What the parser keeps of a value
-/
namespace Tomlkit

/-- a value and its text -/
structure ValIs (st : St) (v : Item) (s : St) : Prop where
  text : Ate st s (v.asString ++ v.trivia.commentWs)
  comment : v.trivia.comment = []
  clean : v.Clean
  simple : v.isSimple = true
  last : ∃ c, v.asString.getLast? = some c ∧ c ≠ 44 ∧ c ≠ 10
  cws : ∀ c ∈ v.trivia.commentWs, isUniSpace c = true ∧ c ≠ 10 ∧ c ≠ 13

theorem asString_setTrivia {v : Item} (h : v.Clean) (hs : v.isSimple = true) (t : Trivia) :
    (v.setTrivia t).asString = v.asString := by
  cases v with
  | array gs t' ml => obtain ⟨⟨rfl, _⟩, _⟩ := h; rfl
  | _ => first | rfl | cases hs

theorem setTrivia_triv {v : Item} (hs : v.isSimple = true) (t : Trivia) : (v.setTrivia t).trivia = t := by
  cases v <;> first | rfl | cases hs

theorem isSimple_setTrivia {v : Item} (hs : v.isSimple = true) (t : Trivia) : (v.setTrivia t).isSimple = true := by
  cases v <;> first | rfl | cases hs

theorem clean_setTrivia {v : Item} (h : v.Clean) (hs : v.isSimple = true) (t : Trivia) : (v.setTrivia t).Clean := by
  cases v <;> first | exact h | cases hs

theorem isValue_simple {v : Item} (hs : v.isSimple = true) : v.isValue = true := by
  cases v <;> first | rfl | cases hs

theorem getLast?_append_some {a b : Str} {c : Chr} (h : b.getLast? = some c) : (a ++ b).getLast? = some c := by
  rw [List.getLast?_append, h]; rfl

/-! ### leaves -/

theorem parseNumber_text {raw : Str} {i : Item} (h : parseNumber raw {} = some i) :
    i.asString = raw ∧ i.trivia = {} ∧ i.Clean ∧ i.isSimple = true := by
  have hs : raw = (numSign raw).1 ++ (numSign raw).2 := by unfold numSign; split <;> simp
  unfold parseNumber at h
  dsimp only at h
  split at h
  · cases h
  · split at h
    · cases h; exact ⟨hs.symm, rfl, trivial, rfl⟩
    · split at h
      · cases h; exact ⟨hs.symm, rfl, trivial, rfl⟩
      · cases h

theorem takeWhile_last {p : Chr → Bool} {l : Str} (hp : p 44 = false) (hp' : p 10 = false) (hne : l.takeWhile p ≠ []) :
    ∃ c, (l.takeWhile p).getLast? = some c ∧ c ≠ 44 ∧ c ≠ 10 := by
  refine ⟨_, List.getLast?_eq_some_getLast hne, ?_⟩
  exact ⟨takeWhile_ne hp _ (List.getLast_mem hne), takeWhile_ne hp' _ (List.getLast_mem hne)⟩

theorem parseBool_keeps (w : Str) (v : Bool) (st : St) (hw : (Item.bool v {}).asString = w)
    (hl : ∃ c, w.getLast? = some c ∧ c ≠ 44 ∧ c ≠ 10) : Keeps (parseBool w v) (ValIs st) st := by
  unfold Keeps P.wp parseBool
  split
  · rename_i a s hs
    split at hs
    · rename_i hp
      cases hs
      refine ⟨List.prefix_refl _, List.drop_suffix _ _, fun _ => ⟨?_, rfl, trivial, rfl, by rw [hw]; exact hl, (by intro c hc; cases hc)⟩⟩
      obtain ⟨r, hr⟩ := List.isPrefixOf_iff_prefix.1 hp
      unfold Ate
      rw [hw]
      show st.rest = (w ++ []) ++ st.rest.drop w.length
      rw [← hr]; simp
    · cases hs
  · rename_i e s hs
    split at hs
    · cases hs
    · cases hs
      exact ⟨List.prefix_refl _, List.suffix_refl _⟩

theorem Tr.dateErr {st s : St} {F : Prop} (h : Tr st s F) (k : PKind) (e : PyErr) {Q : Item → St → Prop} :
    (Tomlkit.dateErr k e : P Item).wp Q (ErrK st) s := by
  cases e
  · exact h.fail
  · exact h.raise

theorem parseDigits_keeps (st : St) (hc : isDigit st.cur = true) (hext : st.ext = []) : Keeps parseDigits (ValIs st) st := by
  have h := Tr.refl st
  unfold Keeps parseDigits
  have hd : (!isValueEnd st.cur) = true := by
    have : isDigit st.cur = true → isValueEnd st.cur = false := by
      simp only [isDigit, isValueEnd, Bool.and_eq_true, decide_eq_true_eq]
      intro ⟨h1, h2⟩
      simp
      omega
    rw [this hc]; rfl
  obtain ⟨r, hr0⟩ := cur_pos hc (by decide)
  refine wp_bind (h.skip fun s h hr he _ => ?_)
  refine wp_bind (wp_extract ?_)
  have hate : Ate st s s.ext := by rw [he, hext, List.nil_append]; exact ate_skip hr
  have hlast : ∃ c, s.ext.getLast? = some c ∧ c ≠ 44 ∧ c ≠ 10 := by
    rw [he, hext, List.nil_append]
    refine takeWhile_last (by decide) (by decide) ?_
    rw [hr0, List.takeWhile_cons]
    simp [hd]
  have hnum : (match parseNumber s.ext {} with
    | some i => (pure i : P Item)
    | none => fail .invalidNumber).wp (fun a s => Tr st s (ValIs st a s)) (ErrK st) s := by
    rcases hp : parseNumber s.ext {} with _ | i
    · exact h.fail
    · obtain ⟨h1, h2, h3, h4⟩ := parseNumber_text hp
      exact h.ret fun _ => ⟨by rw [h1, h2, List.append_nil]; exact hate, by rw [h2], h3, h4, by rw [h1]; exact hlast, (by rw [h2]; intro c hc; cases hc)⟩
  have hplain : ∀ i : Item, i.asString = s.ext → i.trivia = {} → i.Clean → i.isSimple = true →
      (pure i : P Item).wp (fun a s => Tr st s (ValIs st a s)) (ErrK st) s := by
    intro i h1 h2 h3 h4
    exact h.ret fun _ => ⟨by rw [h1, h2, List.append_nil]; exact hate, by rw [h2], h3, h4, by rw [h1]; exact hlast, (by rw [h2]; intro c hc; cases hc)⟩
  rcases hm : matchLoose s.ext with _ | ⟨_ | _, _ | _⟩
  · exact hnum
  · exact hnum
  · dsimp only
    rcases hp : parseRfc3339 s.ext with e | v
    · exact h.dateErr _ _
    · cases v with
      | time d => exact hplain _ rfl rfl trivial rfl
      | _ => exact h.raise
  · dsimp only
    rcases hp : parseRfc3339 s.ext with e | v
    · exact h.dateErr _ _
    · have hgo : (do
          mark
          skip fun c => !isDateEnd c
          let timeRaw ← extract
          let timePart := rstrip timeRaw
          let cws := timeRaw.drop timePart.length
          if timePart.isEmpty then
            match v with
            | .date d => return .date d { commentWs := cws } s.ext
            | .datetime d => return .date d.date { commentWs := cws } s.ext
            | .time _ => raise .assertion
          else
            match parseRfc3339 (s.ext ++ timePart) with
            | .ok (.datetime d) => return .datetime d { commentWs := cws } (s.ext ++ timePart)
            | .ok _ => raise .assertion
            | .error e => Tomlkit.dateErr .invalidDate e : P Item).wp (fun a s => Tr st s (ValIs st a s)) (ErrK st) s := by
        refine wp_bind (h.mark fun s1 h hr1 he1 _ => ?_)
        refine wp_bind (h.skip fun s2 h hr2 he2 _ => ?_)
        refine wp_bind (wp_extract ?_)
        have h2 : Ate s s2 s2.ext := by
          have := ate_skip hr2
          rw [he2, he1, List.nil_append]
          unfold Ate at *; rw [← hr1]; exact this
        have hne : ∀ c ∈ s2.ext, c ≠ 44 ∧ c ≠ 10 ∧ c ≠ 13 := by
          rw [he2, he1, List.nil_append]
          exact fun c hc => ⟨takeWhile_ne (by decide) c hc, takeWhile_ne (by decide) c hc, takeWhile_ne (by decide) c hc⟩
        obtain ⟨w, hw⟩ := rstrip_prefix s2.ext
        have hcws : ∀ c ∈ s2.ext.drop (rstrip s2.ext).length, isUniSpace c = true ∧ c ≠ 10 ∧ c ≠ 13 := fun c hc =>
          ⟨rstrip_drop c hc, (hne c (List.mem_of_mem_drop hc)).2⟩
        have hdrop : s2.ext.drop (rstrip s2.ext).length = w := by
          have : ∀ a : Str, a ++ w = s2.ext → s2.ext.drop a.length = w := by
            intro a ha; rw [← ha]; simp
          exact this _ hw
        dsimp only
        rw [hdrop]
        rw [hdrop] at hcws
        have hall : Ate st s2 (s.ext ++ (rstrip s2.ext ++ w)) := by rw [hw]; exact ate_trans hate h2
        refine wp_ite (fun hemp => ?_) fun hemp => ?_
        · have hemp : rstrip s2.ext = [] := by simpa using hemp
          rw [hemp] at hall
          cases v with
          | time d => exact h.raise
          | date d => exact h.ret fun _ => ⟨hall, rfl, trivial, rfl, hlast, hcws⟩
          | datetime d => exact h.ret fun _ => ⟨hall, rfl, trivial, rfl, hlast, hcws⟩
        · have hemp : rstrip s2.ext ≠ [] := by simpa using hemp
          rcases hp2 : parseRfc3339 (s.ext ++ rstrip s2.ext) with e | v2
          · exact h.dateErr _ _
          · cases v2 with
            | datetime d =>
              refine h.ret fun _ => ⟨?_, rfl, trivial, rfl, ?_, hcws⟩
              · show Ate st s2 ((s.ext ++ rstrip s2.ext) ++ w)
                rw [List.append_assoc]; exact hall
              · refine ⟨_, getLast?_append_some (List.getLast?_eq_some_getLast hemp), ?_⟩
                have := hne _ ((rstrip_prefix s2.ext).subset (List.getLast_mem hemp)); exact ⟨this.1, this.2.1⟩
            | _ => exact h.raise
      cases v with
      | time d => exact h.raise
      | date d => exact hgo
      | datetime d => exact hgo
  · dsimp only
    rcases hp : parseRfc3339 s.ext with e | v
    · exact h.dateErr _ _
    · cases v with
      | datetime d => exact hplain _ rfl rfl trivial rfl
      | _ => exact h.raise

theorem StrIs.val {st s : St} {i : Item} (h : StrIs st i s) : ValIs st i s := by
  obtain ⟨ty, x, o, rfl, hu⟩ := h
  refine ⟨by simpa [Item.asString, Item.trivia] using hu, rfl, trivial, rfl, ?_, (by intro c hc; cases hc)⟩
  show ∃ c, (ty.value ++ o ++ ty.value).getLast? = some c ∧ c ≠ 44 ∧ c ≠ 10
  cases ty
  · exact ⟨34, getLast?_append_some rfl, by decide⟩
  · exact ⟨34, getLast?_append_some rfl, by decide⟩
  · exact ⟨39, getLast?_append_some rfl, by decide⟩
  · exact ⟨39, getLast?_append_some rfl, by decide⟩

end Tomlkit
