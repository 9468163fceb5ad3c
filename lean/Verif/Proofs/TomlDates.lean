import Verif.Proofs.Reads
import Verif.Spec.Toml
/-!
# The dates and times of TOML are read as what they denote
-/
namespace Tomlkit
open _root_.Spec Tomlkit.Spec

variable {q : Prop}

theorem reads_tomlDate {s : Str} {d : PDate} (h : TomlDate s d) : ReadsAs q s (.date d) := by
  obtain ⟨_, htext, hval⟩ := h
  intro n b tail e a l hn hb ht
  obtain ⟨n, rfl⟩ := succ_of_lt hn
  obtain ⟨c, r, hcr, hc⟩ := dateText_head htext
  have hparse := parseValue_at_digit n (r := r) (tail := b ++ tail) hc e a l
  rw [← hcr] at hparse
  rw [hparse]
  obtain ⟨h1, h2⟩ := skip_value (dateText_notEnd htext) (blank_valueEnds hb ht)
  have hrfc : parseRfc3339 s = .ok (.date d) :=
    (C26_date_text _ d).2 ⟨s, [], by simp, .inl rfl, htext, hval⟩
  have hloose : matchLoose s = some (true, false) := by
    have := looseDate_of (r := []) htext
    rw [List.append_nil] at this
    unfold matchLoose
    rw [this]
    rfl
  obtain ⟨k1, k2⟩ := blank_dateSkip hb ht
  refine ⟨.date d { commentWs := b } s, ⟨tail, b, a, l⟩, ?_, .of (by unfold Holds; exact ⟨_, _, rfl⟩), rfl, rfl, .inr ⟨rfl, rfl⟩, fun _ => rfl⟩
  unfold parseDigits
  simp only [skip_bind, extract_bind, h1, h2, List.nil_append, hloose, hrfc, mark_bind, k1, k2, blank_rstrip hb]
  rfl

theorem reads_tomlTime {s : Str} {t : PTime} (h : TomlTime s t) : ReadsAs q s (.time t) := by
  obtain ⟨htext, hval⟩ := h
  intro n b tail e a l hn hb ht
  obtain ⟨n, rfl⟩ := succ_of_lt hn
  obtain ⟨c, r, hcr, hc⟩ := timeText_head htext
  have hparse := parseValue_at_digit n (r := r) (tail := b ++ tail) hc e a l
  rw [← hcr] at hparse
  rw [hparse]
  obtain ⟨h1, h2⟩ := skip_value (timeText_notEnd htext) (blank_valueEnds hb ht)
  have hrfc : parseRfc3339 s = .ok (.time t) :=
    (C26_time_text _ t).2 ⟨s, [], by simp, .inl rfl, htext, hval⟩
  have hloose : matchLoose s = some (false, true) := by
    have g1 := looseDate_time (r := []) htext
    have g2 := looseTime_of (r := []) htext (dollar_fracStops (.inl rfl))
    rw [List.append_nil] at g1 g2
    unfold matchLoose
    rw [g1, g2]
    rfl
  refine ⟨.time t {} s, ⟨b ++ tail, s, a, l⟩, ?_, .of (by unfold Holds; exact ⟨_, _, rfl⟩), rfl, rfl, .inl ⟨rfl, rfl⟩, fun _ => rfl⟩
  unfold parseDigits
  simp only [skip_bind, extract_bind, h1, h2, List.nil_append, hloose, hrfc]
  rfl

theorem zone_wider {zs : Str} {z : Option Int} (h : ZoneText [43] zs z) : ZoneText [43, 124] zs z := by
  rcases h with h | h | ⟨sg, hs, ms, hh, mm, h0, h1, h2, h3, h4, h5⟩
  · exact .inl h
  · exact .inr (.inl h)
  · refine .inr (.inr ⟨sg, hs, ms, hh, mm, h0, h1, h2, h3, h4, ?_⟩)
    rcases h5 with ⟨h5, h6⟩ | h5
    · exact .inl ⟨by simp at h5 ⊢; omega, h6⟩
    · exact .inr h5

/-- a letter between date and time -/
theorem letterDateTime_value {ds ts zs : Str} {sep : Chr} {v : PDateTime} (hsep : sep = 84 ∨ sep = 116) (hd : TomlDate ds v.date)
    (ht : TomlTime ts v.time) (hz : ZoneText [43] zs v.tz) (n : Nat) (b tail e : Str) (a : List Key) (l : List Loss) (hb : Blank b)
    (htail : DateEnds tail) : parseValue (n + 1) ⟨ds ++ sep :: (ts ++ zs) ++ (b ++ tail), e, a, l⟩ =
      .ok (.datetime v {} (ds ++ sep :: (ts ++ zs))) ⟨b ++ tail, ds ++ sep :: (ts ++ zs), a, l⟩ := by
  obtain ⟨_, hdt, hdv⟩ := hd
  obtain ⟨htt, htv⟩ := ht
  have hzt' := zone_wider hz
  obtain ⟨c, r, hcr, hc⟩ := dateText_head hdt
  have hsep3 : sep ∈ [84, 116, 32] := by rcases hsep with rfl | rfl <;> simp
  have hrfc : parseRfc3339 (ds ++ sep :: (ts ++ zs)) = .ok (.datetime v) := by
    rw [C26_datetime_text]
    refine ⟨ds, sep, ts, zs, [], by simp, .inl rfl, hsep3, hdt, hdv, htt, htv, hzt'⟩
  have hend : ∀ c ∈ ds ++ sep :: (ts ++ zs), isValueEnd c = false := by
    intro c hc
    simp at hc
    rcases hc with hc | rfl | hc | hc
    · exact dateText_notEnd hdt c hc
    · rcases hsep with rfl | rfl <;> rfl
    · exact timeText_notEnd htt c hc
    · exact zoneText_notEnd hz c hc
  have hloose : matchLoose (ds ++ sep :: (ts ++ zs)) = some (true, true) := by
    have g1 := looseDate_of (r := sep :: (ts ++ zs)) hdt
    have hfs := zone_fracStops (tail := []) hzt' (.inl rfl)
    rw [List.append_nil] at hfs
    have g2 := looseTime_sep (sep := sep) htt hfs hsep3
    obtain ⟨zz, g3, _⟩ := reZone_of (tail := []) hzt' (.inl rfl)
    rw [List.append_nil] at g3
    unfold matchLoose
    rw [g1]
    simp only
    rw [g2, g3]
    rfl
  obtain ⟨h1, h2⟩ := skip_value hend (blank_valueEnds hb htail)
  generalize hS : ds ++ sep :: (ts ++ zs) = S at *
  have hr' : ∃ r', S = c :: r' := by rw [← hS, hcr]; exact ⟨_, rfl⟩
  obtain ⟨r', hr'⟩ := hr'
  have hparse := parseValue_at_digit n (r := r') (tail := b ++ tail) hc e a l
  rw [← hr'] at hparse
  rw [hparse]
  unfold parseDigits
  simp only [skip_bind, extract_bind, h1, h2, List.nil_append, hloose, hrfc]
  rfl

theorem reads_letterDateTime {ds ts zs : Str} {sep : Chr} {v : PDateTime} (hsep : sep = 84 ∨ sep = 116) (hd : TomlDate ds v.date)
    (ht : TomlTime ts v.time) (hz : ZoneText [43] zs v.tz) : ReadsAs q (ds ++ sep :: (ts ++ zs)) (.datetime v) := by
  intro n b tail e a l hn hb htail
  obtain ⟨n, rfl⟩ := succ_of_lt hn
  exact ⟨_, _, letterDateTime_value hsep hd ht hz n b tail e a l hb htail, .of (by unfold Holds; exact ⟨_, _, rfl⟩), rfl, rfl, .inl ⟨rfl, rfl⟩, fun _ => rfl⟩

theorem notUni_of {c : Chr} (h1 : 32 < c) (h2 : c < 127) : isUniSpace c = false := by
  unfold isUniSpace
  simp only [Bool.or_eq_false_iff, Bool.and_eq_false_iff, decide_eq_false_iff_not, beq_eq_false_iff_ne]
  omega

theorem rstrip_blanks_end {s b : Str} (hs : ∃ s' c, s = s' ++ [c] ∧ isUniSpace c = false) (hb : Blank b) : rstrip (s ++ b) = s := by
  obtain ⟨s', c, rfl, hc⟩ := hs
  unfold rstrip
  have hr : ∀ x ∈ b.reverse, isUniSpace x = true := fun x hx => by rw [hb x (List.mem_reverse.1 hx)]; rfl
  rw [List.reverse_append, List.dropWhile_append_of_pos hr]
  simp [hc]

theorem twoDigits_last {x : Str} {v : Nat} (h : TwoDigits x v) : ∃ s c, x = s ++ [c] ∧ 48 ≤ c ∧ c ≤ 57 := by
  rw [twoDigits_iff] at h
  obtain ⟨a, b, rfl, h⟩ := h
  exact ⟨[a], b, rfl, h.2.2.1, h.2.2.2.1⟩

theorem clock_last {ts zs : Str} {h m s us : Nat} {z : Option Int} (ht : TimeText ts h m s us) (hz : ZoneText [43] zs z) :
    ∃ s' c, ts ++ zs = s' ++ [c] ∧ isUniSpace c = false := by
  have hdig : ∀ {c : Chr}, 48 ≤ c ∧ c ≤ 57 → isUniSpace c = false := fun h => notUni_of (by omega) (by omega)
  rcases hz with ⟨rfl, _⟩ | ⟨rfl | rfl, _⟩ | ⟨sg, hs, ms, _, _, rfl, h1, h2, _⟩
  · obtain ⟨hs, ms, ss, fs, rfl, h1, h2, h3, h4⟩ := ht
    rcases h4 with ⟨rfl, _⟩ | ⟨f, rfl, hne, h5, _⟩
    · obtain ⟨s', c, rfl, hc⟩ := twoDigits_last h3
      exact ⟨hs ++ 58 :: (ms ++ 58 :: s'), c, by simp, hdig hc⟩
    · obtain ⟨f', c, rfl⟩ : ∃ f' c, f = f' ++ [c] := ⟨f.dropLast, f.getLast hne, (List.dropLast_concat_getLast hne).symm⟩
      exact ⟨hs ++ 58 :: (ms ++ 58 :: (ss ++ 46 :: f')), c, by simp, hdig ((IsDigit10_iff c).1 (h5 c (by simp)))⟩
  · exact ⟨ts, 90, rfl, rfl⟩
  · exact ⟨ts, 122, rfl, rfl⟩
  · obtain ⟨s', c, rfl, hc⟩ := twoDigits_last h2
    exact ⟨ts ++ sg :: (hs ++ 58 :: s'), c, by simp, hdig hc⟩

theorem date_of_value {c : Chr} (h : isValueEnd c = false) : isDateEnd c = false := by
  simp [isDateEnd, isValueEnd] at h ⊢
  omega

/-- a space between date and time -/
theorem reads_spaceDateTime {ds ts zs : Str} {v : PDateTime} (hd : TomlDate ds v.date)
    (ht : TomlTime ts v.time) (hz : ZoneText [43] zs v.tz) : ReadsAs q (ds ++ 32 :: (ts ++ zs)) (.datetime v) := by
  obtain ⟨_, hdt, hdv⟩ := hd
  obtain ⟨htt, htv⟩ := ht
  have hzt' := zone_wider hz
  intro n b tail e a l hn hb htail
  obtain ⟨n, rfl⟩ := succ_of_lt hn
  obtain ⟨c, r, hcr, hc⟩ := dateText_head hdt
  have hrfc : parseRfc3339 (ds ++ 32 :: (ts ++ zs)) = .ok (.datetime v) := by
    rw [C26_datetime_text]
    refine ⟨ds, 32, ts, zs, [], by simp, .inl rfl, by simp, hdt, hdv, htt, htv, hzt'⟩
  have hrfcd : parseRfc3339 ds = .ok (.date v.date) :=
    (C26_date_text _ v.date).2 ⟨ds, [], by simp, .inl rfl, hdt, hdv⟩
  have hloose : matchLoose ds = some (true, false) := by
    have := looseDate_of (r := []) hdt
    rw [List.append_nil] at this
    unfold matchLoose
    rw [this]
    rfl
  have hparse := parseValue_at_digit n (r := r) (tail := 32 :: (ts ++ zs) ++ (b ++ tail)) hc e a l
  rw [← hcr] at hparse
  rw [List.append_assoc, hparse]
  obtain ⟨h1, h2⟩ := skip_value (tail := 32 :: (ts ++ zs) ++ (b ++ tail)) (dateText_notEnd hdt) (.inr ⟨32, _, rfl, rfl⟩)
  have hall : ∀ c ∈ 32 :: (ts ++ zs), (!isDateEnd c) = true := by
    intro c hc
    rcases List.mem_cons.1 hc with rfl | hc
    · rfl
    rcases List.mem_append.1 hc with hc | hc
    · rw [date_of_value (timeText_notEnd htt c hc)]; rfl
    · rw [date_of_value (zoneText_notEnd hz c hc)]; rfl
  obtain ⟨k1, k2⟩ := blank_dateSkip hb htail
  have k3 : (32 :: (ts ++ zs) ++ (b ++ tail)).takeWhile (fun c => !isDateEnd c) = 32 :: (ts ++ zs) ++ b := by
    rw [List.takeWhile_append_of_pos hall, k1]
  have k4 : (32 :: (ts ++ zs) ++ (b ++ tail)).dropWhile (fun c => !isDateEnd c) = tail := by
    rw [List.dropWhile_append_of_pos hall, k2]
  obtain ⟨s', c', hs', hc'⟩ := clock_last htt hz
  have hstrip : rstrip (32 :: (ts ++ zs) ++ b) = 32 :: (ts ++ zs) := rstrip_blanks_end ⟨32 :: s', c', by rw [hs']; rfl, hc'⟩ hb
  have hdrop : (32 :: (ts ++ zs) ++ b).drop (32 :: (ts ++ zs)).length = b := by simp
  refine ⟨.datetime v { commentWs := b } (ds ++ 32 :: (ts ++ zs)), ⟨tail, 32 :: (ts ++ zs) ++ b, a, l⟩, ?_, .of (by unfold Holds; exact ⟨_, _, rfl⟩), rfl, rfl, .inr ⟨rfl, rfl⟩, fun _ => rfl⟩
  unfold parseDigits
  simp only [skip_bind, extract_bind, h1, h2, List.nil_append, hloose, hrfcd, mark_bind, k3, k4, hstrip, hdrop, hrfc]
  rfl

theorem reads_tomlDateTime {s : Str} {v : PDateTime} (h : TomlDateTime s v) : ReadsAs q s (.datetime v) := by
  obtain ⟨ds, sep, ts, zs, rfl, hsep, hd, ht, hz⟩ := h
  rcases hsep with rfl | rfl | rfl
  · exact reads_letterDateTime (.inl rfl) hd ht hz
  · exact reads_letterDateTime (.inr rfl) hd ht hz
  · exact reads_spaceDateTime hd ht hz

end Tomlkit
