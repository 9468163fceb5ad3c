import Verif.Proofs.TomlKeys
/-!
# The values of TOML are read as what they denote
-/
namespace Tomlkit
open _root_.Spec Tomlkit.Spec

theorem inl_blanks {tc : Option Bool} {b s : Str} {l : List (List Str × PyVal)} (hb : Blanks b) (h : InlText False tc s l) : InlText False tc (b ++ s) l := by
  induction b with
  | nil => exact h
  | cons c b ih => exact .sp (blanks_spaces hb c (by simp)) (fun h => h.elim) (ih fun x hx => hb x (by simp [hx]))

theorem keyText_head {s k : Str} (h : KeyText s k) :
    ∃ c r, s = c :: r ∧ isSpTabCr c = false ∧ c ≠ 125 ∧ c ≠ 44 ∧ c ≠ 10 ∧ c ≠ 35 ∧ c ≠ 91 := by
  obtain ⟨c, r, h1, h2⟩ := (keyReads_text h Spaces.nil).1
  exact ⟨c, r, by rw [← h1]; simp, h2⟩

theorem dotted_ne {H : Str} {q : List Str} (h : DottedText H q) : q ≠ [] := by cases h <;> simp

/-- a dotted key in front of an equals sign: blanks, then the key -/
theorem dotted_split {H : Str} {q : List Str} (h : DottedText H q) : ∃ b K, H = b ++ K ∧ Blanks b ∧ PathReads K q := by
  have key : ∀ {b1 K : Str}, H = b1 ++ K → Blanks b1 → DottedText K q →
      (∃ c r, K = c :: r ∧ isSpTabCr c = false ∧ c ≠ 125 ∧ c ≠ 44 ∧ c ≠ 10 ∧ c ≠ 35 ∧ c ≠ 91) → ∃ b K, H = b ++ K ∧ Blanks b ∧ PathReads K q := by
    intro b1 K e hb hK hh
    refine ⟨b1, K, e, hb, dotted_ne h, hh, fun tail e a l => ?_⟩
    have hl := dotted_length hK
    obtain ⟨k, h1, _, hp⟩ := parseKey_dottedText hK (d := 61) (.inr rfl) ((K ++ 61 :: tail).length + 1) (by simp; omega)
    obtain ⟨e', hp⟩ := hp tail e a l
    refine ⟨k, e', h1.keys, ?_⟩
    unfold parseKeyHere
    rw [getSt_bind, hp]
  have hnil : Blanks [] := fun c hc => by cases hc
  cases h with
  | one b1 s k b2 h1 hk h2 =>
    obtain ⟨c, r, rfl, hc⟩ := keyText_head hk
    exact key rfl h1 (.one [] _ k b2 hnil hk h2) ⟨c, _, rfl, hc⟩
  | more b1 s k b2 r ks h1 hk h2 h =>
    obtain ⟨c, r', rfl, hc⟩ := keyText_head hk
    exact key rfl h1 (.more [] _ k b2 r ks hnil hk h2 h) ⟨c, _, rfl, hc⟩

/-- one pair -/
theorem inl_pair {tc : Option Bool} {key b3 e b4 t : Str} {path : List Str} {y : Chr} {v : PyVal} {L : List (List Str × PyVal)} (htc : tc ≠ some false)
    (hk : DottedText key path) (h3 : Blanks b3) (he : ReadsAs False e v) (h4 : Blanks b4)
    (hy : isDateEnd y = true) (h : InlText False (some false) (y :: t) L) :
    InlText False tc (key ++ 61 :: (b3 ++ (e ++ (b4 ++ y :: t)))) ((path, v) :: L) := by
  obtain ⟨b1, K, rfl, h1, hK⟩ := dotted_split hk
  rw [List.append_assoc]
  refine inl_blanks h1 ?_
  have hrest := inl_blanks h4 h
  obtain ⟨b', t', e1, g2, g3⟩ := blanks_lead h4 hy t
  rw [e1] at hrest ⊢
  exact .pair htc hK (blanks_spaces h3) he g2 (fun h => h.elim) g3 hrest

mutual
theorem reads_text {s : Str} {v : PyVal} : ValueText s v → ReadsAs False s v
  | .true => reads_bool true
  | .false => reads_bool false
  | .int _ _ h => reads_integer h
  | .float _ _ h => reads_floatLiteral h
  | .str _ _ h => reads_string h
  | .date _ _ h => reads_tomlDate h
  | .time _ _ h => reads_tomlTime h
  | .datetime _ _ h => reads_tomlDateTime h
  | .array _ _ h => reads_array (arr_text h)
  | .emptyTable _ h => reads_inline (inl_blanks h (.close (by simp))) .nil
  | .table _ _ _ h hn => reads_inline (inl_text h (by simp)) hn
theorem arr_text {p : Bool} {s : Str} {l : List PyVal} : ElementsText p s l → ArrText False p s l
  | .close p => .close p
  | .blank p c s l hc h => .ws p (by rcases hc with rfl | rfl <;> rfl) (arr_text h)
  | .newline p nl s l hn h => arr_newline hn (arr_text h)
  | .comment p cm nl s l hc hn h => by
    have h' := arr_text h
    have hs : ∀ x ∈ cm, isCommentChar x = true := fun x hx => notControl_comment (hc x hx)
    rcases hn with rfl | rfl
    · exact .cmt p hs rfl (.ws p rfl h')
    · exact .cmt p hs rfl (.ws p rfl (.ws p rfl h'))
  | .comma s l h => .comma (arr_text h)
  | .elem e v s l he h => by
    have h' := arr_text h
    obtain ⟨b, t, rfl, h1, h2⟩ := h'.split
    exact .elem (reads_text he) h1 (fun h => h.elim) h2 h'
theorem inl_text {s : Str} {L : List (List Str × PyVal)} : PairsText s L → ∀ {tc : Option Bool}, tc ≠ some false → InlText False tc s L
  | .last key path b1 e v b2 hk h1 he h2, _, htc => inl_pair htc hk h1 (reads_text he) h2 rfl (.close (by simp))
  | .more key path b1 e v b2 s L hk h1 he h2 h, _, htc => inl_pair htc hk h1 (reads_text he) h2 rfl (.comma (inl_text h (by simp)))
end

end Tomlkit
