import Verif.Proofs.ReadSubs
/-!
# Reading a document
-/
namespace Tomlkit
open _root_.Spec Tomlkit.Spec

theorem topItems_stops {t : Str} (h : t = [] ∨ ∃ r, t = 91 :: r) (n : Nat) (hn : 1 ≤ n) (c : Cont) (e : Str) (a : List Key) (lg : List Loss) :
    topItems n c ⟨t, e, a, lg⟩ = .ok c ⟨t, e, a, lg⟩ := by
  obtain ⟨m, rfl⟩ : ∃ m, n = m + 1 := ⟨n - 1, by omega⟩
  have hc : (St.atEnd ⟨t, e, a, lg⟩ || decide ((St.mk t e a lg).cur = 91)) = true := by
    rcases h with rfl | ⟨r, rfl⟩
    · rfl
    · simp [St.cur]
  rw [topItems, getSt_bind, if_pos hc]
  rfl

theorem topItems_blanks {b : Str} (hb : Spaces b) (r : Str) {n : Nat} (hn : 1 ≤ n) (c : Cont) (a : List Key) (lg : List Loss) :
    topItems n c ⟨b ++ 91 :: r, [], a, lg⟩ = .ok c ⟨91 :: r, b, a, lg⟩ := by
  obtain ⟨m, rfl⟩ : ∃ m, n = m + 1 := ⟨n - 1, by omega⟩
  rcases b with _ | ⟨x, b⟩
  · exact topItems_stops (.inr ⟨r, rfl⟩) _ (by omega) c [] a lg
  · have hx : x ≠ 91 := by
      rintro rfl
      have := hb 91 (by simp)
      cases this
    rw [topItems, getSt_bind, if_neg (by simp [St.atEnd, St.cur, hx]), P.bind_def, parseItem_bracket hb]
    rfl

/-- A document of lines and tables is read, and holds what they say. -/
theorem doc_reads {text t1 : Str} {L : List (List Str × PyVal)} {l1 l2 : List PyPair} (h1 : Lines text t1 L) (hn : Nest L l1)
    (h2 : Txt .subs none [] [] t1 [] (.dict l2)) (hd : ∀ k ∈ l2.map PyPair.key, k ∉ l1.map PyPair.key) :
    ∃ c, parse text = .ok c ∧ c.dict = (l1 ++ l2).map PyPair.key ∧ MeansIn (l1 ++ l2) c ∧ c.WF := by
  have hg0 : (Cont.empty true).Good PW := (Cont.good_iff _).2 ⟨closed_PW.empty, by intro e he; cases he⟩
  obtain ⟨n1, c1, e1, lg1, bb, rb, rb', r1, r2, r3, r4, r5⟩ := lines_read sink_top h1 (docFuel text) (Cont.empty true) [] [] [] []
    (by unfold docFuel; omega) rfl hg0 DotBody.empty (nest_apart hn)
  have hl1 := lines_tail h1
  have hl2 := txt_length h2
  have hstop : topItems n1 c1 ⟨bb ++ t1, e1, [], lg1⟩ = .ok c1 ⟨t1, bb, [], lg1⟩ := by
    have h1n : 1 ≤ n1 := by unfold docFuel at r3; omega
    rcases hl1.1 with ht | ⟨r, ht⟩
    · rw [rb' ht, ht, r4]
      exact topItems_stops (.inl rfl) n1 h1n _ _ _ _
    · rw [ht, r4]
      exact topItems_blanks rb r h1n _ _ _
  rw [hstop] at r1
  simp only [List.nil_append] at r2
  have hread := r2.read hn ((Cont.good_iff _).1 r5).1.wf
  have m2 : MSubs none [] [] t1 [] l2 := txt_motive h2
  obtain ⟨n2, c2, e2, lg2, q1, q2, q3, q4⟩ := m2 Cont topTables none tsink_top rfl (docFuel text) c1 [] l1 bb [] lg1
    (by unfold docFuel; omega) rfl (.here hread) r5 hd (.inl rfl) ⟨by simp, by simp⟩
  have hq2 : ReadCont c2 (l1 ++ l2) := by
    cases q2 with
    | here h => exact h
  obtain ⟨m, rfl⟩ : ∃ m, n2 = m + 1 := ⟨n2 - 1, by unfold docFuel at q4; simp at q4; omega⟩
  have q1' : topTables (docFuel text) c1 ⟨t1, bb, [], lg1⟩ = .ok c2 ⟨[], e2, [], lg2⟩ := by
    rw [q1, topTables, getSt_bind, if_pos (by rfl)]; rfl
  have hp : parseDoc text (.init text) = .ok c2.stopParsing ⟨[], e2, [], lg2⟩ := by
    unfold parseDoc
    refine (bind_step r1).trans ?_
    refine (bind_step q1').trans ?_
    rfl
  refine ⟨c2.stopParsing, ?_, ?_, meansIn_stopParsing hq2.holds, ?_⟩
  · unfold parse parseLog
    rw [hp]; rfl
  · rw [stopParsing_dict]; exact hq2.dict
  · exact ((Cont.good_iff _).1 (Cont.stopParsing_good closed_WF (fun hc => hc) c2 (good_WF_of_PW q3))).1

end Tomlkit
