import Verif.Proofs.ParsedRows
import Verif.Proofs.Frame
/-!
# A line and a header do not depend on what comes after the next character
-/
namespace Tomlkit

section
variable {α β : Type} {t t' : Str} {l : List Loss} {B B' : Prop} {u e : Str} {a a' : List Key}

theorem Rel.stepIf {d : Chr} {f f' : Unit → P α} (hm : ∀ x, Mono (f x)) (h1 : ∀ w e, Rel t t' a' l False (f ()) (f' ()) w e a)
    : Rel t t' a' l False (Tomlkit.getSt >>= fun st => if st.cur = d then Tomlkit.step >>= f else f ())
      (Tomlkit.getSt >>= fun st => if st.cur = d then Tomlkit.step >>= f' else f' ()) u e a := by
  have hm0 := hm ()
  refine Rel.ne (by mono) (fun h => h.elim) fun hu => ?_
  obtain ⟨c, u, rfl⟩ := List.exists_cons_of_ne_nil hu
  refine Rel.getSt (Rel.ite (c := c = d) (c' := c = d) Iff.rfl (fun _ => ?_) fun _ => h1 _ _)
  refine Rel.bind (B' := True) Rel.step hm (fun h => h.elim) fun _ w e3 a1 h => ?_
  have : a = a1 := (St.mk.inj (Res.ok.inj h).2).2.2.1
  subst this
  exact h1 w e3

theorem Rel.parseTrail : Rel t t' a' l False parseTrail parseTrail u e a := by
  unfold Tomlkit.parseTrail
  refine Rel.bind (B' := False) (Rel.skip _) (fun _ => by mono) (fun h => h.elim) fun _ w e1 a1 h => ?_
  refine Rel.stepIf (fun _ => by mono) fun w e => ?_
  refine Rel.stepIf (fun _ => by mono) fun w e => ?_
  exact fun x s1 h hl hlen hB => by cases h; exact ⟨_, rfl, rfl⟩

theorem Rel.commentTrail : Rel t t' a' l False (parseCommentTrail true) (parseCommentTrail true) u e a := by
  have htr := mono_parseTrail
  refine Rel.ne (mono_parseCommentTrail _) (fun h => h.elim) fun hu => ?_
  obtain ⟨c, r, rfl⟩ := List.exists_cons_of_ne_nil hu
  unfold parseCommentTrail
  refine Rel.getSt (Rel.ite Iff.rfl (fun _ => Rel.pure _) fun _ => ?_)
  refine Rel.mark (Rel.bind (B' := False) (Rel.skip _) (fun _ => by mono) (fun h => h.elim) fun _ w e1 a1 h => ?_)
  refine Rel.ne (by mono) (fun h => h.elim) fun hu => ?_
  obtain ⟨c2, r2, rfl⟩ := List.exists_cons_of_ne_nil hu
  refine Rel.getSt (Rel.ite Iff.rfl (fun _ => ?_) fun _ => Rel.ite Iff.rfl (fun _ => ?_) fun _ => Rel.fail _ _)
  · exact Rel.bind (B' := False) Rel.parseTrail (fun _ => by mono) (fun h => h.elim) fun _ _ _ _ _ => Rel.pure _
  refine Rel.extract (Rel.mark (Rel.bind (B' := True) Rel.step (fun _ => by mono) (fun h => h.elim) fun _ w e2 a2 h => ?_))
  refine Rel.bind (B' := False) (Rel.skip _) (fun _ => by mono) (fun h => h.elim) fun _ w e2 a2 h => ?_
  refine Rel.ne (by mono) (fun h => h.elim) fun hu => ?_
  obtain ⟨c3, r3, rfl⟩ := List.exists_cons_of_ne_nil hu
  refine Rel.getSt (Rel.ite Iff.rfl (fun _ => Rel.fail _ _) fun _ => Rel.extract (Rel.mark ?_))
  exact Rel.bind (B' := False) Rel.parseTrail (fun _ => by mono) (fun h => h.elim) fun _ _ _ _ _ => Rel.pure _

theorem Rel.parseKeyValue (n m : Nat) (hm : 3 * u.length + 2 ≤ m) : Rel t t' a' l False (parseKeyValue n true) (parseKeyValue m true) u e a := by
  rcases n with _ | n
  · intro x s1 h; rw [Tomlkit.parseKeyValue] at h; cases h
  rcases m with _ | m
  · omega
  unfold Tomlkit.parseKeyValue
  have hv := mono_parseValue n
  have hk := mono_parseKeyHere
  have hs := mono_parseSep
  have hc := mono_parseCommentTrail true
  refine Rel.mark (Rel.bind (B' := False) (Rel.skip _) (fun _ => ?_) (fun h => h.elim) fun _ w1 e1 a1 h1 => ?_)
  · repeat' with_reducible first | exact mono_note _ _ | mono
  have hw1 := (mono_skip _ _ _ _ h1).1.length_le
  simp only [List.length_append] at hw1
  refine Rel.extract (Rel.bind (B' := False) Rel.parseKeyHere (fun _ => ?_) (fun h => h.elim) fun key w2 e2 a2 h2 => ?_)
  · repeat' with_reducible first | exact mono_note _ _ | mono
  have hw2 := (mono_parseKeyHere _ _ _ h2).1.length_le
  simp only [List.length_append] at hw2
  refine Rel.bind (B' := False) Rel.parseSep (fun _ => ?_) (fun h => h.elim) fun sep w3 e3 a3 h3 => ?_
  · repeat' with_reducible first | exact mono_note _ _ | mono
  have hw3 := (mono_parseSep _ _ _ h3).1.length_le
  simp only [List.length_append] at hw3
  refine Rel.bind (B' := False) ((Rel.values n).1 False m w3 _ _ (by omega) (fun h => h.elim)) (fun _ => ?_) (fun h => h.elim) fun v w4 e4 a4 h4 => ?_
  · repeat' with_reducible first | exact mono_note _ _ | mono
  refine Rel.bind (B' := False) Rel.commentTrail (fun _ => ?_) (fun h => h.elim) fun v w4 e4 a4 h4 => ?_
  · repeat' with_reducible first | exact mono_note _ _ | mono
  exact Rel.bind (B' := True) (Rel.note _ _) (fun _ => by mono) (fun h => h.elim) fun _ _ _ _ _ => Rel.pure _

theorem mono_parseItem : Mono parseItem := mono_keeps parseItem_keeps

theorem Mono.le {p : P α} (h : Mono p) {st : St} {x : α} {s : St} (hr : p st = .ok x s) : s.rest.length ≤ st.rest.length := (h _ _ _ hr).1.length_le

theorem parseKey_cr (n : Nat) {r : Str} (h : ∃ q, r.dropWhile isSpaces = 13 :: q) (e : Str) (a : List Key) (l : List Loss) (k : Key) (s : St) :
    Tomlkit.parseKey n ⟨r, e, a, l⟩ ≠ .ok k s := by
  obtain ⟨q, hq⟩ := h
  rcases n with _ | n
  · intro h; cases h
  unfold parseKey
  simp only [mark_bind, skip_bind, getSt_bind]
  rw [hq]
  have hc : (St.mk (13 :: q) ([] ++ r.takeWhile isSpaces) a l).cur = 13 := rfl
  rw [hc]
  rw [if_neg (by decide)]
  simp only [skip_bind, extract_bind]
  have h1 : List.takeWhile (fun c => isBareChar c || isSpaces c) (13 :: q) = [] := List.takeWhile_cons_of_neg (by decide)
  rw [h1]
  have h2 : ([] ++ r.takeWhile isSpaces) ++ [] = r.takeWhile isSpaces := by simp
  rw [h2]
  have h3 : (strip (r.takeWhile isSpaces)).isEmpty = true := by
    rw [strip_nil_of takeWhile_mem]
    rfl
  rw [if_pos h3]
  intro h; cases h

theorem kv_spaces {n : Nat} {b : Bool} {r e : Str} {a : List Key} {l : List Loss} {x : Key × Item} {s : St}
    (h : Tomlkit.parseKeyValue n b ⟨r, e, a, l⟩ = .ok x s) :
    r.dropWhile isSpTabCr = r.dropWhile isSpaces ∧ s.rest.length ≤ (r.dropWhile isSpaces).length := by
  rcases n with _ | n
  · rw [Tomlkit.parseKeyValue] at h; cases h
  unfold Tomlkit.parseKeyValue at h
  simp only [mark_bind, skip_bind, extract_bind] at h
  constructor
  · obtain ⟨k, s2, h1, -⟩ := bind_ok h
    rcases hd : r.dropWhile isSpaces with _ | ⟨c, q⟩
    · have : ∀ x ∈ r, isSpaces x = true := by
        intro x hx
        have := List.takeWhile_append_dropWhile (p := isSpaces) (l := r)
        rw [hd, List.append_nil] at this
        rw [← this] at hx
        exact takeWhile_mem _ hx
      have h2 := List.dropWhile_append_of_pos (p := isSpTabCr) (l₁ := r) (l₂ := []) (fun x hx => by
        have := this x hx
        unfold isSpaces at this
        unfold isSpTabCr
        rw [this]; rfl)
      simpa using h2
    · have hc : isSpaces c = false := by
        have := List.head?_dropWhile_not (p := isSpaces) (l := r)
        rw [hd] at this
        simpa using this
      have h13 : c ≠ 13 := by
        rintro rfl
        unfold parseKeyHere at h1
        simp only [getSt_bind] at h1
        refine parseKey_cr _ ⟨q, ?_⟩ _ _ _ _ _ h1
        rw [hd]
        exact List.dropWhile_cons_of_neg (by decide)
      have h3 : r = r.takeWhile isSpaces ++ c :: q := by
        have := List.takeWhile_append_dropWhile (p := isSpaces) (l := r)
        rw [hd] at this
        exact this.symm
      rw [h3, List.dropWhile_append_of_pos, List.dropWhile_cons_of_neg]
      · unfold isSpTabCr
        unfold isSpaces at hc
        rw [hc]
        simp [h13]
      · intro x hx
        have := takeWhile_mem _ hx
        unfold isSpaces at this
        unfold isSpTabCr
        rw [this]; rfl
  · have hv := mono_parseValue n
    have hk := mono_parseKeyHere
    have hs := mono_parseSep
    have hc := mono_parseCommentTrail true
    refine Mono.le ?_ h
    repeat' with_reducible first | exact mono_note _ _ | mono

theorem Rel.parseItem : Rel t t' a' l False parseItem parseItem u e a := by
  have hct := mono_parseCommentTrail true
  have hb : ∀ (q : Res (Key × Item)) (st : St), ((fun (_ : St) => q) >>= fun x => Pure.pure (some (some x.1, x.2)) : P (Option (Option Key × Item))) st =
      (match q with
      | .ok p s => Res.ok (some (some p.1, p.2)) s
      | .err e s => .err e s) := by
    intro q st
    rcases q with _ | _ <;> rfl
  unfold Tomlkit.parseItem
  refine Rel.mark (Rel.getSt ?_)
  intro x s1 h hl hlen hB
  have hB : t.length < s1.rest.length := by rcases hB with h | h; exact h.elim; exact h
  rw [skip_bind] at h
  have hlt : t.length < ((u ++ t).dropWhile isSpTabCr).length := by
    refine Nat.lt_of_lt_of_le hB ?_
    simp only [getSt_bind] at h
    by_cases h1 : (St.mk ((u ++ t).dropWhile isSpTabCr) ([] ++ (u ++ t).takeWhile isSpTabCr) a []).cur = 10
    · rw [if_pos h1] at h
      exact (Mono.le (by mono) h)
    rw [if_neg h1] at h
    split at h
    · cases h; exact Nat.le_refl _
    split at h
    · exact (Mono.le (by mono) h)
    split at h
    · cases h; exact Nat.le_refl _
    · obtain ⟨p, s2, h5, h6⟩ := bind_ok h
      cases h6
      obtain ⟨g1, g2⟩ := kv_spaces h5
      rw [g1]
      exact g2
  obtain ⟨hne, h2⟩ := skip_near hlt
  rw [skip_bind]
  dsimp only at h ⊢
  rw [(h2 t).1, (h2 t).2] at h
  rw [(h2 t').1, (h2 t').2]
  revert h
  generalize u.dropWhile isSpTabCr = w at hne
  generalize [] ++ u.takeWhile isSpTabCr = e1
  obtain ⟨c, r, rfl⟩ := List.exists_cons_of_ne_nil hne
  intro h
  refine (?_ : Rel t t' a' l False _ _ (c :: r) e1 a) x s1 h hl hlen (.inr hB)
  refine Rel.getSt (Rel.ite Iff.rfl (fun _ => ?_) fun _ => Rel.ite Iff.rfl (fun hc => ?_) fun _ => Rel.ite Iff.rfl (fun _ => ?_) fun _ =>
    Rel.ite Iff.rfl (fun _ => Rel.pure _) fun _ => ?_)
  · exact Rel.bind (B' := True) Rel.step (fun _ => by mono) (fun h => h.elim) fun _ w e3 a1 h => Rel.extract (Rel.pure _)
  · exfalso
    change ((List.isEmpty (c :: (r ++ t))) && _) = true at hc
    simp at hc
  · exact Rel.extract (Rel.bind (B' := False) Rel.commentTrail (fun _ => by mono) (fun h => h.elim) fun _ _ _ _ _ => Rel.pure _)
  · intro x s1 h hl hlen hB
    obtain ⟨p, s2, h1, h2⟩ := bind_ok h
    cases h2
    obtain ⟨w2, g1, g2⟩ := Rel.parseKeyValue (a' := a') (l := l) (t := t) (t' := t') (u := u) (e := []) (a := a) (valueFuel (u ++ t)) (valueFuel (u ++ t'))
      (by unfold valueFuel; simp only [List.length_append]; omega) p s1 h1 hl hlen hB
    refine ⟨w2, g1, ?_⟩
    refine (hb _ _).trans ?_
    rw [g2]

theorem headerKey_ok {st : St} {k : Key} {s : St} : headerKey st = .ok k s ↔ parseKeyHere st = .ok k s := by
  unfold headerKey
  rcases parseKeyHere st with ⟨k, s⟩ | ⟨er, s⟩
  · rfl
  · cases er with
    | parse k n => cases k <;> (constructor <;> intro h <;> cases h)
    | _ => (constructor <;> intro h <;> cases h)

theorem mono_headerKey : Mono headerKey := fun st x s h => mono_parseKeyHere st x s (headerKey_ok.1 h)

theorem Rel.headerKey : Rel t t' a' l False headerKey headerKey u e a := by
  intro x s1 h hl hlen hB
  obtain ⟨w, g1, g2⟩ := Rel.parseKeyHere (a' := a') (l := l) (t' := t') x s1 (headerKey_ok.1 h) hl hlen hB
  exact ⟨w, g1, headerKey_ok.2 g2⟩

theorem Rel.parseHeader : Rel t t' a' l False parseHeader parseHeader u e a := by
  have hk := mono_headerKey
  have hc := mono_parseCommentTrail true
  have hn := fun b l => mono_note b l
  unfold Tomlkit.parseHeader
  refine Rel.ne (by mono) (fun h => h.elim) fun hu => ?_
  obtain ⟨c, r, rfl⟩ := List.exists_cons_of_ne_nil hu
  refine Rel.getSt (Rel.ite Iff.rfl (fun _ => Rel.fail _ _) fun _ => Rel.extract ?_)
  refine Rel.bind (B' := True) Rel.step (fun _ => by mono) (fun h => h.elim) fun _ w e3 a1 h => ?_
  refine Rel.ne (by mono) (fun h => h.elim) fun hu => ?_
  obtain ⟨c, r, rfl⟩ := List.exists_cons_of_ne_nil hu
  refine Rel.getSt (Rel.ite Iff.rfl (fun _ => Rel.fail _ _) fun _ => ?_)
  dsimp only
  have e1 : ∀ e a l, (St.mk (c :: r ++ t) e a l).cur = c := fun _ _ _ => rfl
  have e2 : ∀ e a l, (St.mk (c :: r ++ t') e a l).cur = c := fun _ _ _ => rfl
  rw [e1, e2]
  generalize decide (c = 91) = x
  clear e1 e2 h hu
  have hB : ∀ key (v : Str × Str × Str) w e3 a1, Rel t t' a' l False
      (Tomlkit.getSt >>= fun st => Tomlkit.note (!hasNl v.2.2 && !st.atEnd) .headerCr >>= fun _ => Pure.pure (Header.mk e x key v.1 v.2.1 v.2.2))
      (Tomlkit.getSt >>= fun st => Tomlkit.note (!hasNl v.2.2 && !st.atEnd) .headerCr >>= fun _ => Pure.pure (Header.mk e x key v.1 v.2.1 v.2.2))
      w e3 a1 := by
    intro key v w e3 a1
    refine Rel.ne (by mono) (fun h => h.elim) fun hu => ?_
    obtain ⟨c, r, rfl⟩ := List.exists_cons_of_ne_nil hu
    refine Rel.getSt (Rel.bind (B' := True) (Rel.note _ _) (fun _ => by mono) (fun h => h.elim) fun _ w e3 a1 h => Rel.pure _)
  have hA : ∀ w e3 a1, Rel t t' a' l False
      (Tomlkit.getSt >>= fun st => if (x && st.atEnd) = true then Tomlkit.fail .unexpectedEof else
        Tomlkit.headerKey >>= fun key => Tomlkit.getSt >>= fun st => if st.atEnd = true then Tomlkit.fail .unexpectedEof else
          if st.cur ≠ 93 then Tomlkit.fail .unexpectedChar else
            if ((Key.setSep [] key).parts.any fun p => (strip p.key).contains 32 && p.t == .bare) = true then Tomlkit.fail .generic else
              Tomlkit.step >>= fun _ => Tomlkit.getSt >>= fun st => Tomlkit.note (x && st.cur != 93) .aotClose >>= fun _ =>
                if x = true then Tomlkit.step >>= fun _ => parseCommentTrail true >>= fun v => 
                  Tomlkit.getSt >>= fun st => Tomlkit.note (!hasNl v.2.2 && !st.atEnd) .headerCr >>= fun _ => Pure.pure (Header.mk e x (Key.setSep [] key) v.1 v.2.1 v.2.2)
                else parseCommentTrail true >>= fun v => 
                  Tomlkit.getSt >>= fun st => Tomlkit.note (!hasNl v.2.2 && !st.atEnd) .headerCr >>= fun _ => Pure.pure (Header.mk e x (Key.setSep [] key) v.1 v.2.1 v.2.2))
      (Tomlkit.getSt >>= fun st => if (x && st.atEnd) = true then Tomlkit.fail .unexpectedEof else
        Tomlkit.headerKey >>= fun key => Tomlkit.getSt >>= fun st => if st.atEnd = true then Tomlkit.fail .unexpectedEof else
          if st.cur ≠ 93 then Tomlkit.fail .unexpectedChar else
            if ((Key.setSep [] key).parts.any fun p => (strip p.key).contains 32 && p.t == .bare) = true then Tomlkit.fail .generic else
              Tomlkit.step >>= fun _ => Tomlkit.getSt >>= fun st => Tomlkit.note (x && st.cur != 93) .aotClose >>= fun _ =>
                if x = true then Tomlkit.step >>= fun _ => parseCommentTrail true >>= fun v => 
                  Tomlkit.getSt >>= fun st => Tomlkit.note (!hasNl v.2.2 && !st.atEnd) .headerCr >>= fun _ => Pure.pure (Header.mk e x (Key.setSep [] key) v.1 v.2.1 v.2.2)
                else parseCommentTrail true >>= fun v => 
                  Tomlkit.getSt >>= fun st => Tomlkit.note (!hasNl v.2.2 && !st.atEnd) .headerCr >>= fun _ => Pure.pure (Header.mk e x (Key.setSep [] key) v.1 v.2.1 v.2.2))
      w e3 a1 := by
    intro w e3 a1
    refine Rel.ne (by mono) (fun h => h.elim) fun hu => ?_
    obtain ⟨c, r, rfl⟩ := List.exists_cons_of_ne_nil hu
    refine Rel.getSt (Rel.ite Iff.rfl (fun _ => Rel.fail _ _) fun _ => ?_)
    refine Rel.bind (B' := False) Rel.headerKey (fun _ => by mono) (fun h => h.elim) fun key w e3 a1 _ => ?_
    refine Rel.ne (by mono) (fun h => h.elim) fun hu => ?_
    obtain ⟨c, r, rfl⟩ := List.exists_cons_of_ne_nil hu
    refine Rel.getSt (Rel.ite Iff.rfl (fun _ => Rel.fail _ _) fun _ => Rel.ite Iff.rfl (fun _ => Rel.fail _ _) fun _ => Rel.ite Iff.rfl (fun _ => Rel.fail _ _) fun _ => ?_)
    refine Rel.bind (B' := True) Rel.step (fun _ => by mono) (fun h => h.elim) fun _ w e3 a1 _ => ?_
    refine Rel.ne (by mono) (fun h => h.elim) fun hu => ?_
    obtain ⟨c, r, rfl⟩ := List.exists_cons_of_ne_nil hu
    refine Rel.getSt (Rel.bind (B' := True) (Rel.note _ _) (fun _ => by mono) (fun h => h.elim) fun _ w e3 a1 h => ?_)
    refine Rel.ite Iff.rfl (fun _ => ?_) fun _ => ?_
    · refine Rel.ne (by mono) (fun h => h.elim) fun hu => ?_
      obtain ⟨c, r, rfl⟩ := List.exists_cons_of_ne_nil hu
      refine Rel.bind (B' := True) Rel.step (fun _ => by mono) (fun h => h.elim) fun _ w e3 a1 _ => ?_
      exact Rel.bind (B' := False) Rel.commentTrail (fun _ => by mono) (fun h => h.elim) fun v w e3 a1 _ => hB _ v _ _ _
    · exact Rel.bind (B' := False) Rel.commentTrail (fun _ => by mono) (fun h => h.elim) fun v w e3 a1 _ => hB _ v _ _ _
  refine Rel.ite Iff.rfl (fun _ => ?_) fun _ => hA _ _ _
  exact Rel.bind (B' := True) Rel.step (fun _ => by mono) (fun h => h.elim) fun _ w e3 a1 _ => hA _ _ _

/-- what `peekTable` looks at -/
def peekInner : P (Bool × Key) := do
  let st ← Tomlkit.getSt
  if st.cur ≠ 91 then Tomlkit.fail .internal
  else
    Tomlkit.step
    let st ← Tomlkit.getSt
    if st.cur = 91 then
      Tomlkit.step
      let k ← Tomlkit.headerKey
      return (true, k)
    else
      let k ← Tomlkit.headerKey
      return (false, k)

theorem peekTable_eq : Tomlkit.peekTable = peeking peekInner := rfl

theorem peek_ok {st : St} {pk : Bool × Key} {s : St} (h : peekInner st = .ok pk s) : Tomlkit.peekTable st = .ok pk st := by
  rw [peekTable_eq]
  unfold peeking
  rw [h]

theorem Rel.peekInner : Rel t t' a' l False peekInner peekInner u e a := by
  have hk := mono_headerKey
  unfold Tomlkit.peekInner
  refine Rel.ne (by mono) (fun h => h.elim) fun hu => ?_
  obtain ⟨c, r, rfl⟩ := List.exists_cons_of_ne_nil hu
  refine Rel.getSt (Rel.ite Iff.rfl (fun _ => Rel.fail _ _) fun _ => ?_)
  refine Rel.bind (B' := True) Rel.step (fun _ => by mono) (fun h => h.elim) fun _ w e3 a1 h => ?_
  refine Rel.ne (by mono) (fun h => h.elim) fun hu => ?_
  obtain ⟨c, r, rfl⟩ := List.exists_cons_of_ne_nil hu
  refine Rel.getSt (Rel.ite Iff.rfl (fun _ => ?_) fun _ => ?_)
  · refine Rel.bind (B' := True) Rel.step (fun _ => by mono) (fun h => h.elim) fun _ w e3 a1 h => ?_
    exact Rel.bind (B' := False) Rel.headerKey (fun _ => by mono) (fun h => h.elim) fun key w e3 a1 _ => Rel.pure _
  · exact Rel.bind (B' := False) Rel.headerKey (fun _ => by mono) (fun h => h.elim) fun key w e3 a1 _ => Rel.pure _

theorem header_peek {st : St} {h : Header} {s1 : St} (hh : Tomlkit.parseHeader st = .ok h s1) :
    ∃ pk s2, peekInner st = .ok pk s2 ∧ s1.rest.length ≤ s2.rest.length ∧ s2.loss <+: s1.loss := by
  have hk := mono_headerKey
  have hc := mono_parseCommentTrail true
  have hn := fun b l => mono_note b l
  unfold Tomlkit.parseHeader at hh
  unfold peekInner
  rw [getSt_bind] at hh ⊢
  by_cases h91 : st.cur = 91
  · rw [if_neg (by simpa using h91)] at hh ⊢
    rw [extract_bind] at hh
    obtain ⟨_, s2, h1, hh⟩ := bind_ok hh
    have hb : ∀ {β} (f : Unit → P β), (Tomlkit.step >>= f) st = f () s2 := by
      intro β f
      rw [P.bind_def, h1]
    rw [hb]
    rw [getSt_bind] at hh ⊢
    split at hh
    · cases hh
    dsimp only at hh
    by_cases h2 : s2.cur = 91
    · rw [if_pos h2]
      rw [if_pos (by simpa using h2)] at hh
      obtain ⟨_, s3, h3, hh⟩ := bind_ok hh
      rw [P.bind_def, h3]
      dsimp only
      rw [getSt_bind] at hh
      split at hh
      · cases hh
      obtain ⟨k, s4, h4, hh⟩ := bind_ok hh
      rw [P.bind_def, h4]
      have hm := (show Mono _ by mono) _ _ _ hh
      exact ⟨_, s4, rfl, hm.1.length_le, hm.2⟩
    · rw [if_neg h2]
      rw [if_neg (by simpa using h2)] at hh
      rw [getSt_bind] at hh
      split at hh
      · cases hh
      obtain ⟨k, s4, h4, hh⟩ := bind_ok hh
      rw [P.bind_def, h4]
      have hm := (show Mono _ by mono) _ _ _ hh
      exact ⟨_, s4, rfl, hm.1.length_le, hm.2⟩
  · rw [if_pos (by simpa using h91)] at hh
    cases hh
end
end Tomlkit
