import Verif.Proofs.Dates
import Verif.Proofs.StringInv
/-!
# C26, C27: dates and times
-/
namespace Tomlkit
open Spec

/-- the end of a text for Python's `$`: nothing, or a final line break -/
def DollarEnd (tail : Str) : Prop := tail = [] ∨ tail = [10]

/-- text that neither continues a fraction nor a number of digits -/
def FracStops (r : Str) : Prop := ∀ c r', r = c :: r' → isDigit c = false ∧ c ≠ 46

theorem reFrac_of {fs r : Str} {us : Nat} (h : FracText fs us) (hr : FracStops r) :
    ∃ f, reFrac (fs ++ r) = (f, r) ∧ microOf f = us := by
  rcases h with ⟨rfl, rfl⟩ | ⟨d, rfl, h1, h2, rfl⟩
  · refine ⟨none, ?_, rfl⟩
    rw [reFrac_iff]
    refine ⟨rfl, fun r' h => ?_⟩
    exact absurd rfl (hr 46 r' (by simpa using h)).2
  · refine ⟨some d, ?_, microOf_eq h2⟩
    rw [reFrac_iff]
    exact ⟨rfl, h1, h2, fun c r' h => (hr c r' h).1⟩

theorem fracText_of {r1 r : Str} {f : Option Str} (h : reFrac r1 = (f, r)) :
    ∃ fs, r1 = fs ++ r ∧ FracText fs (microOf f) := by
  rw [reFrac_iff] at h
  cases f with
  | none => exact ⟨[], h.1, .inl ⟨rfl, rfl⟩⟩
  | some d => exact ⟨46 :: d, by simpa using h.1, .inr ⟨d, rfl, h.2.1, h.2.2.1, microOf_eq h.2.2.1⟩⟩

theorem strictDate_of {t r : Str} {y m d : Nat} (h : DateText t y m d) (hv : ValidDate y m d) :
    ∃ ys ms ds, strictDate (t ++ r) = some ((ys, ms, ds), r) ∧ digitsNat ys = y ∧ digitsNat ms = m ∧ digitsNat ds = d := by
  obtain ⟨ys, ms, ds, rfl, h1, h2, h3, h4, h5⟩ := h
  refine ⟨ys, ms, ds, ?_, by rw [digitsNat_eq h2, h3], twoDigits_ne h4, twoDigits_ne h5⟩
  rw [strictDate_iff]
  unfold ValidDate at hv
  exact ⟨by simp, h1, h2, ⟨m, h4, by omega⟩, ⟨d, h5, by omega⟩⟩

theorem dateText_of {s r y m d : Str} (h : strictDate s = some ((y, m, d), r)) :
    ∃ t, s = t ++ r ∧ DateText t (digitsNat y) (digitsNat m) (digitsNat d) := by
  rw [strictDate_iff] at h
  obtain ⟨rfl, h1, h2, ⟨v, h3, _⟩, ⟨w, h4, _⟩⟩ := h
  exact ⟨y ++ 45 :: (m ++ 45 :: d), by simp, y, m, d, rfl, h1, h2, (digitsNat_eq h2).symm,
    by rw [twoDigits_ne h3]; exact h3, by rw [twoDigits_ne h4]; exact h4⟩

theorem strictTime_of {t r : Str} {h m s us : Nat} (ht : TimeText t h m s us) (hv : ValidTime h m s us) (hr : FracStops r) :
    ∃ hs ms ss f, strictTime (t ++ r) = some ((hs, ms, ss, f), r) ∧ digitsNat hs = h ∧ digitsNat ms = m ∧
      digitsNat ss = s ∧ microOf f = us := by
  obtain ⟨hs, ms, ss, fs, rfl, h1, h2, h3, h4⟩ := ht
  obtain ⟨f, h5, h6⟩ := reFrac_of h4 hr
  unfold ValidTime at hv
  refine ⟨hs, ms, ss, f, ?_, twoDigits_ne h1, twoDigits_ne h2, twoDigits_ne h3, h6⟩
  rw [strictTime_iff]
  exact ⟨fs ++ r, by simp, ⟨h, h1, by omega⟩, ⟨m, h2, by omega⟩, ⟨s, h3, by omega⟩, h5⟩

theorem timeText_of {s r h m se : Str} {f : Option Str} (ht : strictTime s = some ((h, m, se, f), r)) :
    ∃ t, s = t ++ r ∧ TimeText t (digitsNat h) (digitsNat m) (digitsNat se) (microOf f) := by
  rw [strictTime_iff] at ht
  obtain ⟨r1, rfl, ⟨u, h1, _⟩, ⟨v, h2, _⟩, ⟨w, h3, _⟩, h4⟩ := ht
  obtain ⟨fs, rfl, h5⟩ := fracText_of h4
  exact ⟨h ++ 58 :: (m ++ 58 :: (se ++ fs)), by simp, h, m, se, fs, rfl, by rw [twoDigits_ne h1]; exact h1,
    by rw [twoDigits_ne h2]; exact h2, by rw [twoDigits_ne h3]; exact h3, h5⟩

theorem dollar_fracStops {tail : Str} (h : DollarEnd tail) : FracStops tail := by
  rintro c r' rfl
  rcases h with h | h
  · cases h
  · injection h with h _; subst h; simp [isDigit]

theorem zone_fracStops {zt tail : Str} {z : Option Int} (hz : ZoneText [43, 124] zt z) (h : DollarEnd tail) :
    FracStops (zt ++ tail) := by
  rcases hz with ⟨rfl, _⟩ | ⟨rfl | rfl, _⟩ | ⟨sg, hs, ms, _, _, rfl, _, _, _, _, h1 | h1⟩
  · exact dollar_fracStops h
  · rintro c r' hc; simp at hc; simp [← hc.1, isDigit]
  · rintro c r' hc; simp at hc; simp [← hc.1, isDigit]
  · rintro c r' hc; simp at hc h1; rw [← hc.1]; rcases h1.1 with h | h <;> simp [h, isDigit]
  · rintro c r' hc; simp at hc; rw [← hc.1, h1.1]; simp [isDigit]

theorem reZone_of {zt tail : Str} {z : Option Int} (hz : ZoneText [43, 124] zt z) (h : DollarEnd tail) :
    ∃ zz, reZone (zt ++ tail) = (zz, tail) ∧ zz.map zoneMinutes = z := by
  rcases hz with ⟨rfl, rfl⟩ | ⟨h1, rfl⟩ | ⟨sg, hs, ms, hh, mm, rfl, h1, h2, h3, h4, h5⟩
  · refine ⟨none, ?_, rfl⟩
    rcases h with rfl | rfl <;> rfl
  · refine ⟨some .utc, ?_, rfl⟩
    rw [reZone_some]
    exact ⟨zt, rfl, h1⟩
  · refine ⟨some (.off sg hs ms), ?_, ?_⟩
    · rw [reZone_some]
      refine ⟨_, rfl, rfl, ?_, ⟨hh, h1, h3⟩, ⟨mm, h2, h4⟩⟩
      simp at h5; omega
    · simp only [Option.map_some, zoneMinutes, twoDigits_ne h1, twoDigits_ne h2]
      rcases h5 with ⟨h5, rfl⟩ | ⟨rfl, rfl⟩
      · simp at h5
        rw [if_neg (by omega)]
      · rw [if_pos rfl]

theorem zoneText_of {r tail : Str} {zz : Option Zone} (h : reZone r = (zz, tail)) :
    ∃ zt, r = zt ++ tail ∧ ZoneText [43, 124] zt (zz.map zoneMinutes) := by
  cases zz with
  | none => exact ⟨[], (reZone_none h).symm, .inl ⟨rfl, rfl⟩⟩
  | some z =>
    rw [reZone_some] at h
    obtain ⟨t, rfl, hz⟩ := h
    refine ⟨t, rfl, ?_⟩
    cases z with
    | utc => exact .inr (.inl ⟨hz, rfl⟩)
    | off c hs ms =>
      obtain ⟨rfl, hc, ⟨hh, h1, h2⟩, ⟨mm, h3, h4⟩⟩ := hz
      refine .inr (.inr ⟨c, hs, ms, hh, mm, rfl, h1, h3, h2, h4, ?_⟩)
      simp only [Option.map_some, zoneMinutes, twoDigits_ne h1, twoDigits_ne h3]
      by_cases h45 : c = 45
      · exact .inr ⟨h45, by rw [if_pos h45]⟩
      · exact .inl ⟨by simp; omega, by rw [if_neg h45]⟩

theorem zone_valid {zt : Str} {z : Int} {plus : List Nat} (hz : ZoneText plus zt (some z)) : ValidOffset z := by
  unfold ValidOffset
  rcases hz with ⟨_, h⟩ | ⟨_, h⟩ | ⟨sg, hs, ms, hh, mm, rfl, h1, h2, h3, h4, ⟨_, h5⟩ | ⟨_, h5⟩⟩
  · cases h
  · injection h with h; omega
  · injection h5 with h; omega
  · injection h5 with h; omega

/-! ## C26: `parse_rfc3339` accepts exactly the texts of valid dates and times -/

/-- What `parse_rfc3339` reads as a date: exactly the texts of valid calendar dates (a final line break is let
through by `$`). -/
theorem C26_date_text (s : Str) (d : PDate) : parseRfc3339 s = .ok (.date d) ↔
    ∃ t tail, s = t ++ tail ∧ DollarEnd tail ∧ DateText t d.year d.month d.day ∧ ValidDate d.year d.month d.day := by
  constructor
  · intro h
    unfold parseRfc3339 at h
    split at h
    · split at h
      · cases h
      · split at h <;> cases h
    · split at h
      · rename_i y m dd hm
        split at h
        · cases h
        · rename_i dt hd
          injection h with h; injection h with h; subst h
          rw [mkDate_ok] at hd
          obtain ⟨rfl, hv⟩ := hd
          unfold matchDate at hm
          split at hm
          · rename_i d' r hs
            split at hm
            · rename_i hdol
              rw [atDollar_iff] at hdol
              injection hm with hm; subst hm
              obtain ⟨t, h1, h2⟩ := dateText_of hs
              exact ⟨t, r, h1, hdol, h2, hv⟩
            · cases hm
          · cases hm
      · split at h
        · split at h <;> cases h
        · cases h
  · rintro ⟨t, tail, rfl, htail, ht, hv⟩
    obtain ⟨ys, ms, ds, h1, h2, h3, h4⟩ := strictDate_of (r := tail) ht hv
    have hdt : matchDateTime (t ++ tail) = none := by
      unfold matchDateTime
      rw [h1]
      rcases htail with rfl | rfl <;> rfl
    have hd : matchDate (t ++ tail) = some (ys, ms, ds) := by
      unfold matchDate
      rw [h1]
      simp only
      rw [if_pos ((atDollar_iff tail).2 htail)]
    unfold parseRfc3339
    rw [hdt, hd]
    simp only
    rw [h2, h3, h4, (mkDate_ok (p := d)).2 ⟨rfl, hv⟩]

/-- What `parse_rfc3339` reads as a time of day: exactly the texts of valid times; digits of the fraction after the
sixth are cut off. -/
theorem C26_time_text (s : Str) (t : PTime) : parseRfc3339 s = .ok (.time t) ↔
    ∃ w tail, s = w ++ tail ∧ DollarEnd tail ∧ TimeText w t.hour t.minute t.second t.micro ∧
      ValidTime t.hour t.minute t.second t.micro := by
  constructor
  · intro h
    unfold parseRfc3339 at h
    split at h
    · split at h
      · cases h
      · split at h <;> cases h
    · split at h
      · split at h <;> cases h
      · split at h
        · rename_i hh mi se f hm
          split at h
          · cases h
          · rename_i tt ht
            injection h with h; injection h with h; subst h
            rw [mkTime_ok] at ht
            obtain ⟨rfl, hv⟩ := ht
            unfold matchTime at hm
            split at hm
            · rename_i t' r hs
              split at hm
              · rename_i hdol
                rw [atDollar_iff] at hdol
                injection hm with hm; subst hm
                obtain ⟨w, h1, h2⟩ := timeText_of hs
                exact ⟨w, r, h1, hdol, h2, hv⟩
              · cases hm
            · cases hm
        · cases h
  · rintro ⟨w, tail, rfl, htail, ht, hv⟩
    obtain ⟨hs, ms, ss, f, h1, h2, h3, h4, h5⟩ := strictTime_of ht hv (dollar_fracStops htail)
    have hnd : strictDate (w ++ tail) = none := by
      obtain ⟨hs, ms, ss, fs, rfl, g1, g2, g3, g4⟩ := ht
      unfold strictDate
      have : digits1 (hs ++ 58 :: (ms ++ 58 :: (ss ++ fs)) ++ tail) = some (hs, 58 :: (ms ++ 58 :: (ss ++ fs)) ++ tail) := by
        rw [digits1_iff]
        refine ⟨by simp, ?_, g1.2.1, ?_⟩
        · intro h0
          have := g1.1
          rw [h0] at this
          simp at this
        · intro c r h
          simp at h
          simp [← h.1, isDigit]
      rw [this]
      rfl
    have hdt : matchDateTime (w ++ tail) = none := by
      unfold matchDateTime
      rw [hnd]
      rfl
    have hd : matchDate (w ++ tail) = none := by
      unfold matchDate
      rw [hnd]
    have hm : matchTime (w ++ tail) = some (hs, ms, ss, f) := by
      unfold matchTime
      rw [h1]
      simp only
      rw [if_pos ((atDollar_iff tail).2 htail)]
    unfold parseRfc3339
    rw [hdt, hd, hm]
    simp only
    rw [h2, h3, h4, h5, (mkTime_ok (p := t)).2 ⟨rfl, hv⟩]

/-- What `parse_rfc3339` reads as a date and time: a date, one of `T`, `t` and space, a time, and an optional offset.
The code takes `|` for a plus sign (a slip in its regular expression); with `[43]` for `[43, 124]` the right side is
RFC 3339, see `C26_datetime_rfc`. -/
theorem C26_datetime_text (s : Str) (v : PDateTime) : parseRfc3339 s = .ok (.datetime v) ↔
    ∃ dt sep tt zt tail, s = dt ++ sep :: (tt ++ (zt ++ tail)) ∧ DollarEnd tail ∧ sep ∈ [84, 116, 32] ∧
      DateText dt v.date.year v.date.month v.date.day ∧ ValidDate v.date.year v.date.month v.date.day ∧
      TimeText tt v.time.hour v.time.minute v.time.second v.time.micro ∧
      ValidTime v.time.hour v.time.minute v.time.second v.time.micro ∧ ZoneText [43, 124] zt v.tz := by
  constructor
  · intro h
    unfold parseRfc3339 at h
    split at h
    · rename_i y m d hh mi se f z hm
      split at h
      · cases h
      · rename_i dt hd
        split at h
        · cases h
        · rename_i tt ht
          injection h with h; injection h with h; subst h
          rw [mkDate_ok] at hd
          rw [mkTime_ok] at ht
          obtain ⟨rfl, hv⟩ := hd
          obtain ⟨rfl, hv2⟩ := ht
          unfold matchDateTime at hm
          simp only [Option.bind_eq_bind, Option.bind_eq_some_iff, Prod.exists] at hm
          obtain ⟨y', m', d', r, hsd, r2, hsep, hh', mi', se', f', r3, hst, hz⟩ := hm
          rcases hz' : reZone r3 with ⟨z', r4⟩
          rw [hz'] at hz
          simp only at hz
          split at hz
          · rename_i hdol
            rw [atDollar_iff] at hdol
            simp only [Option.some.injEq, Prod.mk.injEq] at hz
            obtain ⟨⟨rfl, rfl, rfl⟩, ⟨rfl, rfl, rfl, rfl⟩, rfl⟩ := hz
            obtain ⟨dt, rfl, g1⟩ := dateText_of hsd
            obtain ⟨tt, rfl, g2⟩ := timeText_of hst
            obtain ⟨zt, rfl, g3⟩ := zoneText_of hz'
            have hsep' : ∃ c, r = c :: (tt ++ (zt ++ r4)) ∧ c ∈ [84, 116, 32] := by
              cases r with
              | nil => simp [reSep] at hsep
              | cons c r =>
                simp only [reSep] at hsep
                split at hsep
                · rename_i hc
                  injection hsep with hsep
                  refine ⟨c, by rw [hsep], ?_⟩
                  simp at hc ⊢
                  omega
                · cases hsep
            obtain ⟨c, rfl, hc⟩ := hsep'
            exact ⟨dt, c, tt, zt, r4, rfl, hdol, hc, g1, hv, g2, hv2, g3⟩
          · cases hz
    · split at h
      · split at h <;> cases h
      · split at h
        · split at h <;> cases h
        · cases h
  · rintro ⟨dt, sep, tt, zt, tail, rfl, htail, hsep, hd, hvd, ht, hvt, hz⟩
    obtain ⟨ys, ms, ds, h1, h2, h3, h4⟩ := strictDate_of (r := sep :: (tt ++ (zt ++ tail))) hd hvd
    obtain ⟨hs, mis, ss, f, g1, g2, g3, g4, g5⟩ := strictTime_of ht hvt (zone_fracStops hz htail)
    obtain ⟨zz, k1, k2⟩ := reZone_of hz htail
    have hsep' : reSep (sep :: (tt ++ (zt ++ tail))) = some (tt ++ (zt ++ tail)) := by
      simp only [reSep]
      rw [if_pos]
      simp at hsep ⊢
      omega
    have hm : matchDateTime (dt ++ sep :: (tt ++ (zt ++ tail))) = some ((ys, ms, ds), (hs, mis, ss, f), zz) := by
      unfold matchDateTime
      rw [h1]
      simp only [Option.bind_eq_bind, Option.bind_some, hsep', g1, k1]
      rw [if_pos ((atDollar_iff tail).2 htail)]
    unfold parseRfc3339
    rw [hm]
    simp only
    rw [h2, h3, h4, g2, g3, g4, g5, k2, (mkDate_ok (p := v.date)).2 ⟨rfl, hvd⟩, (mkTime_ok (p := v.time)).2 ⟨rfl, hvt⟩]

/-- For texts without `|`, `C26_datetime_text` with the offsets of RFC 3339. -/
theorem C26_datetime_rfc (s : Str) (hbar : 124 ∉ s) (v : PDateTime) : parseRfc3339 s = .ok (.datetime v) ↔
    ∃ dt sep tt zt tail, s = dt ++ sep :: (tt ++ (zt ++ tail)) ∧ DollarEnd tail ∧ sep ∈ [84, 116, 32] ∧
      DateText dt v.date.year v.date.month v.date.day ∧ ValidDate v.date.year v.date.month v.date.day ∧
      TimeText tt v.time.hour v.time.minute v.time.second v.time.micro ∧
      ValidTime v.time.hour v.time.minute v.time.second v.time.micro ∧ ZoneText [43] zt v.tz := by
  rw [C26_datetime_text]
  constructor
  · rintro ⟨dt, sep, tt, zt, tail, rfl, htail, hsep, hd, hvd, ht, hvt, hz⟩
    refine ⟨dt, sep, tt, zt, tail, rfl, htail, hsep, hd, hvd, ht, hvt, ?_⟩
    rcases hz with hz | hz | ⟨sg, hs, ms, hh, mm, rfl, h1, h2, h3, h4, h5⟩
    · exact .inl hz
    · exact .inr (.inl hz)
    · refine .inr (.inr ⟨sg, hs, ms, hh, mm, rfl, h1, h2, h3, h4, ?_⟩)
      rcases h5 with ⟨h5, h6⟩ | h5
      · refine .inl ⟨?_, h6⟩
        simp at h5 hbar ⊢
        omega
      · exact .inr h5
  · rintro ⟨dt, sep, tt, zt, tail, rfl, htail, hsep, hd, hvd, ht, hvt, hz⟩
    refine ⟨dt, sep, tt, zt, tail, rfl, htail, hsep, hd, hvd, ht, hvt, ?_⟩
    rcases hz with hz | hz | ⟨sg, hs, ms, hh, mm, rfl, h1, h2, h3, h4, h5⟩
    · exact .inl hz
    · exact .inr (.inl hz)
    · refine .inr (.inr ⟨sg, hs, ms, hh, mm, rfl, h1, h2, h3, h4, ?_⟩)
      rcases h5 with ⟨h5, h6⟩ | h5
      · exact .inl ⟨by simp at h5 ⊢; omega, h6⟩
      · exact .inr h5

example : parseRfc3339 (t!"2000-02-29T23:59:59.1234569-07:30") =
    .ok (.datetime ⟨⟨2000, 2, 29⟩, ⟨23, 59, 59, 123456⟩, some (-450)⟩) ∧
    parseRfc3339 (t!"1900-02-29") = .error .valueError ∧
    parseRfc3339 (t!"1979-05-27T00:32:00|05:00") = .ok (.datetime ⟨⟨1979, 5, 27⟩, ⟨0, 32, 0, 0⟩, some 300⟩) :=
  ⟨rfl, rfl, rfl⟩

/-! ## C26: values read by the parser -/

/-- the fields of a date or time item are in range -/
def DateFieldsValid : Item → Prop
  | .date d _ _ => ValidDate d.year d.month d.day
  | .time t _ _ => ValidTime t.hour t.minute t.second t.micro
  | .datetime v _ _ => ValidDate v.date.year v.date.month v.date.day ∧
      ValidTime v.time.hour v.time.minute v.time.second v.time.micro ∧ ∀ o, v.tz = some o → ValidOffset o
  | _ => True

/-- the fields of a result of `parse_rfc3339` are in range -/
def RfcValid : Rfc → Prop
  | .date d => ValidDate d.year d.month d.day
  | .time t => ValidTime t.hour t.minute t.second t.micro
  | .datetime v => ValidDate v.date.year v.date.month v.date.day ∧
      ValidTime v.time.hour v.time.minute v.time.second v.time.micro ∧ ∀ o, v.tz = some o → ValidOffset o

theorem rfc_valid {s : Str} {r : Rfc} (h : parseRfc3339 s = .ok r) : RfcValid r := by
  cases r with
  | date d => obtain ⟨_, _, _, _, _, h⟩ := (C26_date_text s d).1 h; exact h
  | time t => obtain ⟨_, _, _, _, _, h⟩ := (C26_time_text s t).1 h; exact h
  | datetime v =>
    obtain ⟨_, _, _, _, _, _, _, _, _, h1, _, h2, h3⟩ := (C26_datetime_text s v).1 h
    exact ⟨h1, h2, fun o ho => zone_valid (ho ▸ h3)⟩

theorem parseNumber_notDate {raw : Str} {t : Trivia} {it : Item} (h : parseNumber raw t = some it) : DateFieldsValid it := by
  unfold parseNumber at h
  simp only at h
  split at h
  · cases h
  · split at h
    · injection h with h; subst h; trivial
    · split at h
      · injection h with h; subst h; trivial
      · cases h

theorem dateErr_not_ok {α : Type} {k : PKind} {e : PyErr} {st st' : St} {a : α} : dateErr k e st ≠ .ok a st' := by
  cases e <;> simp [dateErr]

theorem parseDigits_valid {st st' : St} {it : Item} (h : parseDigits st = .ok it st') : DateFieldsValid it := by
  unfold parseDigits at h
  simp only [skip_bind, extract_bind] at h
  generalize st.ext ++ st.rest.takeWhile (fun c => !isValueEnd c) = raw at h
  generalize St.mk (st.rest.dropWhile fun c => !isValueEnd c) raw st.aot st.loss = s1 at h
  have hnum : ∀ {x : Option Item}, x = parseNumber raw {} →
      (match x with | some i => pure i | none => (fail .invalidNumber : P Item)) s1 = .ok it st' → DateFieldsValid it := by
    intro x hx h
    cases x with
    | none => simp at h
    | some i => simp at h; rw [← h.1]; exact parseNumber_notDate hx.symm
  rcases hl : matchLoose raw with _ | ⟨_ | _, _ | _⟩ <;> rw [hl] at h <;> simp only at h
  · exact hnum rfl h
  · exact hnum rfl h
  · rcases hr : parseRfc3339 raw with e | r <;> rw [hr] at h <;> try simp only at h
    · exact absurd h dateErr_not_ok
    · cases r <;> simp at h
      rw [← h.1]; exact rfc_valid hr
  · rcases hr : parseRfc3339 raw with e | r <;> rw [hr] at h <;> try simp only at h
    · exact absurd h dateErr_not_ok
    · have hfin : ∀ {s2 : St} {t1 : Trivia} {w : Str},
          (match parseRfc3339 w with
            | .ok (.datetime d) => pure (.datetime d t1 w)
            | .ok _ => raise .assertion
            | .error e => dateErr .invalidDate e : P Item) s2 = .ok it st' → DateFieldsValid it := by
        intro s2 t1 w h
        rcases hr2 : parseRfc3339 w with e | r2 <;> rw [hr2] at h <;> try simp only at h
        · exact absurd h dateErr_not_ok
        · cases r2 <;> simp at h
          rw [← h.1]; exact rfc_valid hr2
      cases r with
      | time t => simp at h
      | date d =>
        simp only [mark_bind, skip_bind, extract_bind] at h
        split at h
        · simp at h; rw [← h.1]; exact rfc_valid hr
        · exact hfin h
      | datetime d =>
        simp only [mark_bind, skip_bind, extract_bind] at h
        split at h
        · simp at h; rw [← h.1]; exact (rfc_valid hr).1
        · exact hfin h
  · rcases hr : parseRfc3339 raw with e | r <;> rw [hr] at h <;> try simp only at h
    · exact absurd h dateErr_not_ok
    · cases r <;> simp at h
      rw [← h.1]; exact rfc_valid hr

/-- **C26, the parser.** Every date, time or datetime that the parser reads anywhere (top level, array, inline table)
has fields in range. -/
theorem C26_parsed_fields (n : Nat) (st st' : St) (it : Item) (h : parseValue n st = .ok it st') : DateFieldsValid it := by
  cases n with
  | zero => simp [parseValue] at h
  | succ n =>
    rw [parseValue] at h
    simp only [mark_bind, getSt_bind] at h
    split at h
    · obtain ⟨_, _, _, rfl, _⟩ := restoring_isStr h; trivial
    · split at h
      · obtain ⟨_, _, _, rfl, _⟩ := restoring_isStr h; trivial
      · split at h
        · unfold parseBool at h
          split at h
          · injection h with h _; subst h; trivial
          · cases h
        · split at h
          · unfold parseBool at h
            split at h
            · injection h with h _; subst h; trivial
            · cases h
          · split at h
            · simp only [P.bind_ok] at h
              obtain ⟨_, _, _, _, _, _, h⟩ := h
              simp at h; rw [← h.1]; trivial
            · split at h
              · simp only [P.bind_ok] at h
                obtain ⟨_, _, _, _, _, _, h⟩ := h
                simp at h; rw [← h.1]; trivial
              · split at h
                · simp only [skip_bind, extract_bind] at h
                  generalize hp : parseNumber _ _ = x at h
                  cases x with
                  | none => simp at h
                  | some i => simp at h; rw [← h.1]; exact parseNumber_notDate hp
                · split at h
                  · exact parseDigits_valid h
                  · simp at h

/-- **C26, value().** -/
theorem C26_value_fields (raw : Str) (it : Item) (h : apiValue raw = .ok it) : DateFieldsValid it := by
  unfold apiValue at h
  split at h
  · rename_i v st hv
    split at h
    · injection h with h; subst h
      exact C26_parsed_fields _ _ _ _ hv
    · cases h
  · cases h

/-- **C26, date(), time(), datetime().** -/
theorem C26_api_fields (raw : Str) (it : Item) (h : apiDate raw = .ok it ∨ apiTime raw = .ok it ∨ apiDatetime raw = .ok it) :
    DateFieldsValid it := by
  unfold apiDate apiTime apiDatetime rfcOf at h
  cases hr : parseRfc3339 raw with
  | error e => cases e <;> simp [hr] at h
  | ok r =>
    have hv := rfc_valid hr
    cases r <;> simp [hr] at h <;> subst h <;> exact hv

/-! ## C27 -/

theorem padDigits_spec (w n : Nat) : (padDigits w n).length = w ∧ AllDigits (padDigits w n) ∧
    positional 10 (padDigits w n) = n % 10 ^ w := by
  induction w generalizing n with
  | zero => simp [padDigits, AllDigits, positional, Nat.mod_one]
  | succ w ih =>
    obtain ⟨h1, h2, h3⟩ := ih (n / 10)
    refine ⟨by simp [padDigits, h1], ?_, ?_⟩
    · intro c hc
      simp only [padDigits, List.mem_append, List.mem_singleton] at hc
      rcases hc with hc | hc
      · exact h2 c hc
      · rw [IsDigit10_iff]; omega
    · rw [padDigits, positional_append, h3]
      have hd : positional 10 [48 + n % 10] = n % 10 := by
        have : IsDigit 10 (48 + n % 10) := by rw [IsDigit10_iff]; omega
        simp [positional, dig_digit this]
      rw [hd]
      simp only [List.length_singleton, Nat.pow_one]
      rw [Nat.pow_succ, Nat.mul_comm (10 ^ w) 10, Nat.mod_mul]
      omega

theorem pad2 {v : Nat} (h : v < 100) : TwoDigits (padDigits 2 v) v := by
  obtain ⟨h1, h2, h3⟩ := padDigits_spec 2 v
  exact ⟨h1, h2, by rw [h3]; omega⟩

theorem isoDate_text {d : PDate} (h : ValidDate d.year d.month d.day) : DateText (isoDate d) d.year d.month d.day := by
  obtain ⟨h1, h2, h3⟩ := padDigits_spec 4 d.year
  unfold ValidDate at h
  refine ⟨padDigits 4 d.year, padDigits 2 d.month, padDigits 2 d.day, rfl, ?_, h2, by rw [h3]; omega, pad2 (by omega),
    pad2 (by omega)⟩
  intro h0
  rw [h0] at h1
  simp at h1

theorem isoTime_text {t : PTime} (h : ValidTime t.hour t.minute t.second t.micro) :
    TimeText (isoTime t) t.hour t.minute t.second t.micro := by
  unfold ValidTime at h
  refine ⟨padDigits 2 t.hour, padDigits 2 t.minute, padDigits 2 t.second, _, rfl, pad2 (by omega), pad2 (by omega),
    pad2 (by omega), ?_⟩
  split
  · exact .inl ⟨rfl, by assumption⟩
  · obtain ⟨h1, h2, h3⟩ := padDigits_spec 6 t.micro
    refine .inr ⟨_, rfl, ?_, h2, ?_⟩
    · intro h0
      rw [h0] at h1
      simp at h1
    · rw [h1, h3]; omega

/-- the text of the zone of an offset, as `item` writes it -/
def zoneText (z : Option Int) : Str :=
  match z with
  | none => []
  | some m => if m = 0 then [90] else isoZone m

theorem zoneText_spec {z : Option Int} (h : ∀ o, z = some o → ValidOffset o) : ZoneText [43] (zoneText z) z := by
  cases z with
  | none => exact .inl ⟨rfl, rfl⟩
  | some m =>
    have hm := h m rfl
    unfold ValidOffset at hm
    simp only [zoneText]
    split
    · rename_i h0; exact .inr (.inl ⟨.inl rfl, by rw [h0]⟩)
    · refine .inr (.inr ⟨if m < 0 then 45 else 43, padDigits 2 (m.natAbs / 60), padDigits 2 (m.natAbs % 60),
        m.natAbs / 60, m.natAbs % 60, rfl, pad2 (by omega), pad2 (by omega), by omega, by omega, ?_⟩)
      split
      · refine .inr ⟨rfl, ?_⟩
        congr 1; omega
      · refine .inl ⟨by simp, ?_⟩
        congr 1; omega

theorem replaceUtc_append (a b : Str) (h : 43 ∉ a) : replaceUtc (a ++ b) = a ++ replaceUtc b := by
  induction a with
  | nil => rfl
  | cons c a ih =>
    simp at h
    rw [List.cons_append, replaceUtc]
    · rw [ih h.2]; rfl
    · intro r h1 h2
      exact h.1 h1.symm

theorem replaceUtc_id (a : Str) (h : 43 ∉ a) : replaceUtc a = a := by
  have := replaceUtc_append a [] h
  simpa [replaceUtc] using this

theorem digits_no_plus {s : Str} (h : AllDigits s) : 43 ∉ s := fun hc => by
  have := (IsDigit10_iff 43).1 (h 43 hc); omega

theorem replaceUtc_zone {m : Int} (h : ValidOffset m) : replaceUtc (isoZone m) = if m = 0 then [90] else isoZone m := by
  unfold ValidOffset at h
  obtain ⟨a1, a2, a3⟩ := padDigits_spec 2 (m.natAbs / 60)
  obtain ⟨b1, b2, b3⟩ := padDigits_spec 2 (m.natAbs % 60)
  split
  · rename_i h0; subst h0; rfl
  · rename_i h0
    unfold isoZone
    simp only
    split
    · rw [replaceUtc_id]
      simp
      exact ⟨digits_no_plus a2, digits_no_plus b2⟩
    · rw [replaceUtc]
      · rw [replaceUtc_id]
        simp
        exact ⟨digits_no_plus a2, digits_no_plus b2⟩
      · intro r _ h2
        match hp : padDigits 2 (m.natAbs / 60), a1 with
        | [x, y], _ =>
          match hq : padDigits 2 (m.natAbs % 60), b1 with
          | [z, w], _ =>
            rw [hp, hq] at h2
            simp at h2
            rw [hp] at a2 a3
            rw [hq] at b2 b3
            rw [← digitsNat_eq a2] at a3
            rw [← digitsNat_eq b2] at b3
            simp [digitsNat, h2] at a3 b3
            omega

theorem dateText_no_plus {s : Str} {y m d : Nat} (h : DateText s y m d) : 43 ∉ s := by
  obtain ⟨ys, ms, ds, rfl, h1, h2, h3, h4, h5⟩ := h
  simp
  exact ⟨digits_no_plus h2, digits_no_plus h4.2.1, digits_no_plus h5.2.1⟩

theorem timeText_no_plus {s : Str} {h m sec us : Nat} (ht : TimeText s h m sec us) : 43 ∉ s := by
  obtain ⟨hs, ms, ss, fs, rfl, h1, h2, h3, h4⟩ := ht
  simp
  refine ⟨digits_no_plus h1.2.1, digits_no_plus h2.2.1, digits_no_plus h3.2.1, ?_⟩
  rcases h4 with ⟨rfl, _⟩ | ⟨f, rfl, _, h5, _⟩
  · simp
  · simp; exact digits_no_plus h5

theorem datetime_text {v : PDateTime} (hd : ValidDate v.date.year v.date.month v.date.day)
    (ht : ValidTime v.time.hour v.time.minute v.time.second v.time.micro) (hz : ∀ o, v.tz = some o → ValidOffset o) :
    replaceUtc (isoDateTime v) = isoDate v.date ++ 84 :: (isoTime v.time ++ zoneText v.tz) := by
  unfold isoDateTime
  rw [replaceUtc_append _ _ (dateText_no_plus (isoDate_text hd))]
  rw [show ∀ X : Str, 84 :: X = [84] ++ X from fun _ => rfl, replaceUtc_append [84] _ (by simp),
    replaceUtc_append _ _ (timeText_no_plus (isoTime_text ht))]
  cases hv : v.tz with
  | none => rfl
  | some m => simp only [zoneText, replaceUtc_zone (hz m hv)]; rfl

/-! ### The loose pattern sees the same thing -/

theorem uniDecimal_digit {c : Chr} (h : 48 ≤ c ∧ c ≤ 57) : isReDigit c = true := by
  simp [isReDigit, uniDecimal, h]

theorem two_of {x r : Str} {v : Nat} (h : TwoDigits x v) : two isReDigit isReDigit (x ++ r) = some (x, r) := by
  rw [twoDigits_iff] at h
  obtain ⟨a, b, rfl, h⟩ := h
  simp [two, uniDecimal_digit (c := a) (by omega), uniDecimal_digit (c := b) (by omega)]

theorem looseDate_of {t r : Str} {y m d : Nat} (h : DateText t y m d) : looseDate (t ++ r) = some r := by
  obtain ⟨ys, ms, ds, rfl, h1, h2, h3, h4, h5⟩ := h
  have hd : digits1 (ys ++ 45 :: (ms ++ 45 :: ds) ++ r) = some (ys, 45 :: (ms ++ 45 :: (ds ++ r))) := by
    rw [digits1_iff]
    refine ⟨by simp, h1, h2, ?_⟩
    intro c r h
    simp at h
    simp [← h.1, isDigit]
  have e1 := two_of (r := 45 :: (ds ++ r)) h4
  have e2 := two_of (r := r) h5
  unfold looseDate
  simp only [hd, lit, e1, e2, Option.bind_eq_bind, Option.bind_some, if_true, pure]

theorem timeText_head {t : Str} {h m s us : Nat} (ht : TimeText t h m s us) :
    ∃ c r, t = c :: r ∧ 48 ≤ c ∧ c ≤ 57 := by
  obtain ⟨hs, ms, ss, fs, rfl, h1, _⟩ := ht
  rw [twoDigits_iff] at h1
  obtain ⟨a, b, rfl, h⟩ := h1
  exact ⟨a, _, rfl, h.1, h.2.1⟩

theorem looseClock_of {t r : Str} {h m s us : Nat} (ht : TimeText t h m s us) (hr : FracStops r) :
    looseClock (t ++ r) = some (reZone r).2 := by
  obtain ⟨hs, ms, ss, fs, rfl, h1, h2, h3, h4⟩ := ht
  obtain ⟨f, h5, _⟩ := reFrac_of h4 hr
  have e1 := two_of (r := 58 :: (ms ++ 58 :: (ss ++ (fs ++ r)))) h1
  have e2 := two_of (r := 58 :: (ss ++ (fs ++ r))) h2
  have e3 := two_of (r := fs ++ r) h3
  unfold looseClock
  simp only [List.append_assoc, List.cons_append, e1, e2, e3, h5, lit, Option.bind_eq_bind, Option.bind_some, if_true, pure]

theorem looseTime_of {t r : Str} {h m s us : Nat} (ht : TimeText t h m s us) (hr : FracStops r) :
    looseTime (t ++ r) = some (reZone r).2 := by
  obtain ⟨c, r0, ht0, hc⟩ := timeText_head ht
  unfold looseTime
  have : dropTimeSep (t ++ r) = t ++ r := by
    rw [ht0]
    simp only [List.cons_append, dropTimeSep]
    rw [if_neg (by simp; omega)]
  rw [this, looseClock_of ht hr]

theorem looseTime_sep {t r : Str} {sep : Chr} {h m s us : Nat} (ht : TimeText t h m s us) (hr : FracStops r)
    (hsep : sep ∈ [84, 116, 32]) : looseTime (sep :: (t ++ r)) = some (reZone r).2 := by
  unfold looseTime
  have : dropTimeSep (sep :: (t ++ r)) = t ++ r := by
    simp only [dropTimeSep]
    rw [if_pos]
    simp at hsep ⊢
    omega
  rw [this, looseClock_of ht hr]

theorem looseDate_time {t r : Str} {h m s us : Nat} (ht : TimeText t h m s us) : looseDate (t ++ r) = none := by
  obtain ⟨hs, ms, ss, fs, rfl, g1, g2, g3, g4⟩ := ht
  have : digits1 (hs ++ 58 :: (ms ++ 58 :: (ss ++ fs)) ++ r) = some (hs, 58 :: (ms ++ 58 :: (ss ++ fs)) ++ r) := by
    rw [digits1_iff]
    refine ⟨by simp, ?_, g1.2.1, ?_⟩
    · intro h0
      have := g1.1
      rw [h0] at this
      simp at this
    · intro c r h
      simp at h
      simp [← h.1, isDigit]
  unfold looseDate
  rw [this]
  rfl

/-- `parse_value` at a digit, followed by the end of a value -/
theorem parseValue_at_digit (n : Nat) {c : Chr} {r tail : Str} (hc : 48 ≤ c ∧ c ≤ 57) (e a l) :
    parseValue (n + 1) ⟨c :: r ++ tail, e, a, l⟩ = parseDigits ⟨c :: r ++ tail, [], a, l⟩ := by
  have hs : startsSpecialNumber (c :: r ++ tail) = false := special_false hc _
  have hcur : ∀ e, (St.mk (c :: r ++ tail) e a l).cur = c := fun _ => rfl
  generalize c :: r ++ tail = X at *
  rw [parseValue]
  simp only [mark_bind, getSt_bind, hcur, hs]
  have h34 : c ≠ 34 ∧ c ≠ 39 ∧ c ≠ 116 ∧ c ≠ 102 ∧ c ≠ 91 ∧ c ≠ 123 := by omega
  have hd : isDigit c = true := by simp [isDigit]; omega
  simp [h34, hd]

/-- the end of a date value: a character after which nothing is read as a time -/
def DateEnds (tail : Str) : Prop := tail = [] ∨ ∃ d r, tail = d :: r ∧ isDateEnd d = true

theorem DateEnds.valueEnds {tail : Str} (h : DateEnds tail) : ValueEnds tail := by
  rcases h with h | ⟨d, r, h, hd⟩
  · exact .inl h
  · refine .inr ⟨d, r, h, ?_⟩
    simp [isDateEnd, isValueEnd] at hd ⊢
    omega

theorem DateEnds.skip {tail : Str} (h : DateEnds tail) :
    tail.takeWhile (fun c => !isDateEnd c) = [] ∧ tail.dropWhile (fun c => !isDateEnd c) = tail := by
  rcases h with rfl | ⟨d, r, rfl, hd⟩
  · simp
  · simp [hd]

theorem notEnd_digit {c : Chr} (h : 48 ≤ c ∧ c ≤ 57) : isValueEnd c = false := by
  simp [isValueEnd]; omega

theorem twoDigits_notEnd {x : Str} {v : Nat} (h : TwoDigits x v) : ∀ c ∈ x, isValueEnd c = false :=
  fun c hc => notEnd_digit ((IsDigit10_iff c).1 (h.2.1 c hc))

theorem dateText_notEnd {s : Str} {y m d : Nat} (h : DateText s y m d) : ∀ c ∈ s, isValueEnd c = false := by
  obtain ⟨ys, ms, ds, rfl, h1, h2, h3, h4, h5⟩ := h
  intro c hc
  simp at hc
  rcases hc with hc | rfl | hc | rfl | hc
  · exact notEnd_digit ((IsDigit10_iff c).1 (h2 c hc))
  · rfl
  · exact twoDigits_notEnd h4 c hc
  · rfl
  · exact twoDigits_notEnd h5 c hc

theorem timeText_notEnd {s : Str} {h m se us : Nat} (ht : TimeText s h m se us) : ∀ c ∈ s, isValueEnd c = false := by
  obtain ⟨hs, ms, ss, fs, rfl, h1, h2, h3, h4⟩ := ht
  intro c hc
  simp at hc
  rcases hc with hc | rfl | hc | rfl | hc | hc
  · exact twoDigits_notEnd h1 c hc
  · rfl
  · exact twoDigits_notEnd h2 c hc
  · rfl
  · exact twoDigits_notEnd h3 c hc
  · rcases h4 with ⟨rfl, _⟩ | ⟨f, rfl, _, h5, _⟩
    · simp at hc
    · simp at hc
      rcases hc with rfl | hc
      · rfl
      · exact notEnd_digit ((IsDigit10_iff c).1 (h5 c hc))

theorem zoneText_notEnd {s : Str} {z : Option Int} (h : ZoneText [43] s z) : ∀ c ∈ s, isValueEnd c = false := by
  intro c hc
  rcases h with ⟨rfl, _⟩ | ⟨rfl | rfl, _⟩ | ⟨sg, hs, ms, _, _, rfl, h1, h2, _, _, h3⟩
  · simp at hc
  · simp at hc; subst hc; rfl
  · simp at hc; subst hc; rfl
  · simp at hc h3
    rcases hc with rfl | hc | rfl | hc
    · have : c = 43 ∨ c = 45 := by omega
      rcases this with h | h <;> subst h <;> rfl
    · exact twoDigits_notEnd h1 c hc
    · rfl
    · exact twoDigits_notEnd h2 c hc

theorem dateText_head {t : Str} {y m d : Nat} (h : DateText t y m d) : ∃ c r, t = c :: r ∧ 48 ≤ c ∧ c ≤ 57 := by
  obtain ⟨ys, ms, ds, rfl, h1, h2, _⟩ := h
  cases ys with
  | nil => exact absurd rfl h1
  | cons c ys => exact ⟨c, _, rfl, (IsDigit10_iff c).1 (h2 c (by simp))⟩

theorem date_value {d : PDate} (h : ValidDate d.year d.month d.day) (n : Nat) (tail e a l) (ht : DateEnds tail) :
    parseValue (n + 1) ⟨isoDate d ++ tail, e, a, l⟩ = .ok (dateItem d) ⟨tail, [], a, l⟩ := by
  have htext := isoDate_text h
  obtain ⟨c, r, hcr, hc⟩ := dateText_head htext
  have hparse := parseValue_at_digit n (r := r) (tail := tail) hc e a l
  rw [← hcr] at hparse
  rw [hparse]
  obtain ⟨h1, h2⟩ := skip_value (dateText_notEnd htext) ht.valueEnds
  have hrfc : parseRfc3339 (isoDate d) = .ok (.date d) :=
    (C26_date_text _ d).2 ⟨isoDate d, [], by simp, .inl rfl, htext, h⟩
  have hloose : matchLoose (isoDate d) = some (true, false) := by
    have := looseDate_of (r := []) htext
    rw [List.append_nil] at this
    unfold matchLoose
    rw [this]
    rfl
  obtain ⟨k1, k2⟩ := ht.skip
  unfold parseDigits
  simp only [skip_bind, extract_bind, h1, h2, List.nil_append, hloose, hrfc, mark_bind, k1, k2]
  rfl

theorem time_value {t : PTime} (h : ValidTime t.hour t.minute t.second t.micro) (n : Nat) (tail e a l) (ht : ValueEnds tail) :
    parseValue (n + 1) ⟨isoTime t ++ tail, e, a, l⟩ = .ok (timeItem t) ⟨tail, isoTime t, a, l⟩ := by
  have htext := isoTime_text h
  obtain ⟨c, r, hcr, hc⟩ := timeText_head htext
  have hparse := parseValue_at_digit n (r := r) (tail := tail) hc e a l
  rw [← hcr] at hparse
  rw [hparse]
  obtain ⟨h1, h2⟩ := skip_value (timeText_notEnd htext) ht
  have hrfc : parseRfc3339 (isoTime t) = .ok (.time t) :=
    (C26_time_text _ t).2 ⟨isoTime t, [], by simp, .inl rfl, htext, h⟩
  have hloose : matchLoose (isoTime t) = some (false, true) := by
    have g1 := looseDate_time (r := []) htext
    have g2 := looseTime_of (r := []) htext (dollar_fracStops (.inl rfl))
    rw [List.append_nil] at g1 g2
    unfold matchLoose
    rw [g1, g2]
    rfl
  unfold parseDigits
  simp only [skip_bind, extract_bind, h1, h2, List.nil_append, hloose, hrfc]
  rfl

theorem datetime_value {v : PDateTime} (hd : ValidDate v.date.year v.date.month v.date.day)
    (ht : ValidTime v.time.hour v.time.minute v.time.second v.time.micro) (hz : ∀ o, v.tz = some o → ValidOffset o)
    (n : Nat) (tail e a l) (htail : ValueEnds tail) :
    parseValue (n + 1) ⟨replaceUtc (isoDateTime v) ++ tail, e, a, l⟩ =
      .ok (datetimeItem v) ⟨tail, replaceUtc (isoDateTime v), a, l⟩ := by
  have htx := datetime_text hd ht hz
  have hdt := isoDate_text hd
  have htt := isoTime_text ht
  have hzt := zoneText_spec hz
  have hzt' : ZoneText [43, 124] (zoneText v.tz) v.tz := by
    rcases hzt with h | h | ⟨sg, hs, ms, hh, mm, h0, h1, h2, h3, h4, h5⟩
    · exact .inl h
    · exact .inr (.inl h)
    · refine .inr (.inr ⟨sg, hs, ms, hh, mm, h0, h1, h2, h3, h4, ?_⟩)
      rcases h5 with ⟨h5, h6⟩ | h5
      · exact .inl ⟨by simp at h5 ⊢; omega, h6⟩
      · exact .inr h5
  obtain ⟨c, r, hcr, hc⟩ := dateText_head hdt
  have hrfc : parseRfc3339 (replaceUtc (isoDateTime v)) = .ok (.datetime v) := by
    rw [C26_datetime_text]
    exact ⟨_, 84, _, _, [], by rw [htx]; simp, .inl rfl, by simp, hdt, hd, htt, ht, hzt'⟩
  have hend : ∀ c ∈ replaceUtc (isoDateTime v), isValueEnd c = false := by
    rw [htx]
    intro c hc
    simp at hc
    rcases hc with hc | rfl | hc | hc
    · exact dateText_notEnd hdt c hc
    · rfl
    · exact timeText_notEnd htt c hc
    · exact zoneText_notEnd hzt c hc
  have hloose : matchLoose (replaceUtc (isoDateTime v)) = some (true, true) := by
    rw [htx]
    have g1 := looseDate_of (r := 84 :: (isoTime v.time ++ zoneText v.tz)) hdt
    have hfs := zone_fracStops (tail := []) hzt' (.inl rfl)
    rw [List.append_nil] at hfs
    have g2 := looseTime_sep (sep := 84) htt hfs (by simp)
    obtain ⟨zz, g3, _⟩ := reZone_of (tail := []) hzt' (.inl rfl)
    rw [List.append_nil] at g3
    unfold matchLoose
    rw [g1]
    simp only
    rw [g2, g3]
    rfl
  obtain ⟨h1, h2⟩ := skip_value hend htail
  have hhead : ∃ r', replaceUtc (isoDateTime v) = c :: r' := by rw [htx, hcr]; exact ⟨_, rfl⟩
  obtain ⟨r', hr'⟩ := hhead
  have hparse := parseValue_at_digit n (r := r') (tail := tail) hc e a l
  rw [← hr'] at hparse
  rw [hparse]
  unfold parseDigits
  simp only [skip_bind, extract_bind, h1, h2, List.nil_append, hloose, hrfc]
  rfl

theorem valueFuel_succ (s : Str) : ∃ n, valueFuel s = n + 1 := ⟨valueFuel s - 1, by unfold valueFuel; omega⟩

/-- **C27, dates.** -/
theorem C27_date_survives (d : PDate) (h : ValidDate d.year d.month d.day) :
    apiValue (dateItem d).asString = .ok (dateItem d) := by
  obtain ⟨n, hn⟩ := valueFuel_succ (isoDate d)
  have := date_value h n [] [] [] [] (.inl rfl)
  rw [List.append_nil] at this
  unfold apiValue St.init
  simp only [dateItem, Item.asString, hn]
  rw [this]
  rfl

/-- **C27, times.** -/
theorem C27_time_survives (t : PTime) (h : ValidTime t.hour t.minute t.second t.micro) :
    apiValue (timeItem t).asString = .ok (timeItem t) := by
  obtain ⟨n, hn⟩ := valueFuel_succ (isoTime t)
  have := time_value h n [] [] [] [] (.inl rfl)
  rw [List.append_nil] at this
  unfold apiValue St.init
  simp only [timeItem, Item.asString, hn]
  rw [this]
  rfl

/-- **C27, datetimes**, local or with an offset of whole minutes. -/
theorem C27_datetime_survives (v : PDateTime) (hd : ValidDate v.date.year v.date.month v.date.day)
    (ht : ValidTime v.time.hour v.time.minute v.time.second v.time.micro) (hz : ∀ o, v.tz = some o → ValidOffset o) :
    apiValue (datetimeItem v).asString = .ok (datetimeItem v) := by
  obtain ⟨n, hn⟩ := valueFuel_succ (replaceUtc (isoDateTime v))
  have := datetime_value hd ht hz n [] [] [] [] (.inl rfl)
  rw [List.append_nil] at this
  unfold apiValue St.init
  simp only [datetimeItem, Item.asString, hn]
  rw [this]
  rfl

example : ValidDate 2024 2 29 ∧ ValidTime 23 59 59 999999 ∧ ValidOffset (-1439) ∧
    (datetimeItem ⟨⟨2024, 2, 29⟩, ⟨23, 59, 59, 999999⟩, some (-1439)⟩).asString = t!"2024-02-29T23:59:59.999999-23:59" := by
  refine ⟨?_, ?_, ?_, by decide +kernel⟩
  · unfold ValidDate Leap; simp
  · unfold ValidTime; omega
  · unfold ValidOffset; omega

end Tomlkit
