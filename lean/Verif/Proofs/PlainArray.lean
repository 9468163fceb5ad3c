import Verif.Spec.PlainArray
import Verif.Proofs.TomlValues
import Verif.Proofs.TidyText
import Verif.Proofs.Local
/-!
# Arrays that are read tidy
-/
namespace Tomlkit
open _root_.Spec Tomlkit.Spec

theorem kept_newline {p : Bool} {nl s : Str} {l : List PyVal} (hn : Newline nl) (h : ArrText True p s l) : ArrText True p (nl ++ s) l := by
  rcases hn with rfl | rfl
  · exact .ws p rfl h
  · exact .ws p rfl (.ws p rfl h)

theorem kept_ends {t : Str} {l : List PyVal} (h : ArrText True true t l) (hb : NoBlankFirst t) : DateEnds t := by
  cases h with
  | close => exact .inr ⟨93, [], rfl, rfl⟩
  | @ws _ c t l hc h =>
    refine .inr ⟨c, _, rfl, ?_⟩
    have := hb c rfl
    simp only [isWs, isSpaces, isNl, Bool.or_eq_true, beq_iff_eq] at hc
    have : c = 9 ∨ c = 10 ∨ c = 13 := by omega
    rcases this with rfl | rfl | rfl <;> rfl
  | cmt => exact .inr ⟨35, _, rfl, rfl⟩
  | comma => exact .inr ⟨44, _, rfl, rfl⟩

mutual
theorem inner_reads {s : Str} {v : PyVal} : InnerValue s v → ReadsAs True s v
  | .true => reads_bool true
  | .false => reads_bool false
  | .int _ _ h => reads_integer h
  | .float _ _ h => reads_floatLiteral h
  | .str _ _ h => reads_string h
  | .date _ _ h => reads_tomlDate h
  | .time _ _ h => reads_tomlTime h
  | .datetime _ _ h => reads_tomlDateTime h
  | .array _ _ h => reads_array (inner_arr h)
theorem inner_arr {p : Bool} {s : Str} {l : List PyVal} : InnerElements p s l → ArrText True p s l
  | .close p => .close p
  | .blank p c s l hc h => .ws p (by rcases hc with rfl | rfl <;> rfl) (inner_arr h)
  | .newline p nl s l hn h => kept_newline hn (inner_arr h)
  | .comment p cm nl s l hc hn h => by
    have h' := inner_arr h
    have hs : ∀ x ∈ cm, isCommentChar x = true := fun x hx => notControl_comment (hc x hx)
    rcases hn with rfl | rfl
    · exact .cmt p hs rfl (.ws p rfl h')
    · exact .cmt p hs rfl (.ws p rfl (.ws p rfl h'))
  | .comma s l h => .comma (inner_arr h)
  | .elem e v s l he hb h => by
    have h' := inner_arr h
    exact ArrText.elem (b := []) (inner_reads he) Blank.nil (fun _ => rfl) (kept_ends h' hb) h'
end

theorem ReadsAs.weak {s : Str} {v : PyVal} (h : ReadsAs True s v) : ReadsAs False s v := by
  intro n b tail e a l hn hb ht
  obtain ⟨i, st, h1, h2, h3, h4, h5, _⟩ := h n b tail e a l hn hb ht
  exact ⟨i, st, h1, h2, h3, h4, h5, fun h => h.elim⟩

/-- The item means the value and its text is read as that value. -/
structure Litm (w : PyVal) (i : Item) : Prop where
  means : Means w i
  reads : ReadsAs False i.asString w
  tl : i.isTableLike = false

def IsLitm (i : Item) : Prop := ∃ w, Litm w i

theorem Lit.m {w : PyVal} {i : Item} (h : Lit False w i) : Litm w i := ⟨.of h.holds, h.reads, h.tl⟩
theorem IsLit.m {i : Item} (h : IsLit False i) : IsLitm i := ⟨_, h.choose_spec.m⟩

theorem Litm.isData {w : PyVal} {i : Item} (h : Litm w i) : i.isData = true := by
  simp [Item.isData, means_kind h.means]

theorem isLitm_data (i : Item) (h : IsLitm i) : i.isData = true := by obtain ⟨w, h⟩ := h; exact h.isData

/-- an element read in front of blanks and the end of a value: what is left of the blanks follows -/
theorem inner_item {s : Str} {v : PyVal} (h : InnerValue s v) (n : Nat) (b tail e : Str) (a : List Key) (hn : s.length < n) (hb : Blank b)
    (ht : DateEnds tail) : ∃ i st, parseValue n ⟨s ++ (b ++ tail), e, a, []⟩ = .ok i st ∧ Litm v i ∧ st.aot = a ∧
      st.rest = (if i.trivia.commentWs = [] then b else []) ++ tail ∧ st.loss = [] ∧ (b = [] → i.trivia.commentWs = []) := by
  obtain ⟨i, st, h1, h2, h3, h4, h5, h6⟩ := inner_reads h n b tail e a [] hn hb ht
  have hv := keeps_fact ((value_keeps _).1 _) h1 (h6 trivial)
  have hx := hv.text
  unfold Ate at hx
  have hs : i.asString = s := by
    rcases h5 with ⟨h5, h5'⟩ | ⟨h5, h5'⟩
    · rw [h5, List.append_nil, h5'] at hx
      exact (List.append_cancel_right hx).symm
    · rw [h5, h5', List.append_assoc] at hx
      exact (List.append_cancel_right hx).symm
  refine ⟨i, st, h1, ⟨h2, by rw [hs]; exact (inner_reads h).weak, h3⟩, h4, ?_, h6 trivial, fun hb0 => by rcases h5 with ⟨h5, _⟩ | ⟨h5, _⟩ <;> simp [h5, hb0]⟩
  rcases h5 with ⟨h5, h5'⟩ | ⟨h5, h5'⟩
  · rw [if_pos h5]; exact h5'
  · rw [h5']
    split
    · rename_i h0; rw [h0] at h5; rw [← h5]; rfl
    · rfl

/-! ## The loop -/

theorem bn_ws {b : Str} (h : BlanksAndNewlines b) : ∀ c ∈ b, isWs c = true := by
  induction h with
  | nil => intro c hc; cases hc
  | blank c s hc _ ih =>
    intro x hx
    rcases List.mem_cons.1 hx with rfl | hx
    · rcases hc with rfl | rfl <;> rfl
    · exact ih x hx
  | newline nl s hn _ ih =>
    intro x hx
    rcases List.mem_append.1 hx with hx | hx
    · rcases hn with rfl | rfl
      · simp at hx; subst hx; rfl
      · simp at hx; rcases hx with rfl | rfl <;> rfl
    · exact ih x hx

/-- the item that white space leaves -/
def wsItems (b : Str) : List Item := if b = [] then [] else [.ws b false]

theorem loop_ws {b : Str} (hb : ∀ c ∈ b, isWs c = true) (p : Bool) (elems : List Item) {c : Chr} (hc : isWs c = false) (h35 : c ≠ 35) (r e : Str) (a : List Key)
    (lg : List Loss) (n : Nat) (hn : 0 < n) :
    ∃ m e', n ≤ m + b.length ∧ m ≤ n ∧ arrayLoop n p elems ⟨b ++ c :: r, e, a, lg⟩ = arrayLoop m p (elems ++ wsItems b) ⟨c :: r, e', a, lg⟩ := by
  by_cases h0 : b = []
  · subst h0
    exact ⟨n, e, by omega, Nat.le_refl _, by simp [wsItems]⟩
  · obtain ⟨n, rfl⟩ : ∃ k, n = k + 1 := ⟨n - 1, by omega⟩
    have hpos : 0 < b.length := List.length_pos_iff.2 h0
    refine ⟨n, e ++ b, by omega, by omega, ?_⟩
    obtain ⟨h1, h2⟩ := takeWhile_halt (p := isWs) hb hc r
    rw [arrayLoop]
    simp only [getSt_bind, skip_bind, h1, h2]
    have hw : wsItems b = [.ws b false] := if_neg h0
    rw [hw]
    by_cases hnl : b.any isNl = true
    · rw [if_pos hnl]
    · rw [if_neg hnl, if_neg (by rw [St.cur_cons]; exact h35), if_pos (by simp [h0])]

theorem ws_no_comma {b : Str} (h : ∀ c ∈ b, isWs c = true) : b.contains 44 = false := by
  cases hc : b.contains 44 with
  | false => rfl
  | true =>
    have := h 44 (by simpa using hc)
    exact absurd this (by decide)

theorem group_ws {b : Str} (hb : ∀ c ∈ b, isWs c = true) (g : GroupSt) (r : List Item) :
    groupLoop g (.ws b false :: r) = flushGroup g ++ groupLoop { indent := some b } r := by
  rw [groupLoop, if_pos (by rw [ws_no_comma hb]; rfl)]

/-- Items after a full group start a new group. -/
def Opens (items : List Item) : Prop := ∀ g : GroupSt, g.v.isSome = true → groupLoop g items = flushGroup g ++ groupLoop {} items

theorem opens_nil : Opens [] := by intro g _; simp [groupLoop, flushGroup, GroupSt.nonEmpty]

theorem flush_empty : flushGroup {} = [] := rfl

theorem opens_ws {b : Str} (hb : ∀ c ∈ b, isWs c = true) (r : List Item) : Opens (.ws b false :: r) := by
  intro g _
  rw [group_ws hb, group_ws hb, flush_empty]
  rfl

theorem group_data {it : Item} (h : it.isData = true) (g : GroupSt) (r : List Item) :
    groupLoop g (it :: r) = match g.v with
      | none => groupLoop { g with v := some it } r
      | some _ => flushGroup g ++ groupLoop { v := some it } r := by
  rw [groupLoop_other g it r (by cases it <;> first | rfl | cases h)]
  cases g.v <;> rfl

theorem opens_data {it : Item} (h : it.isData = true) (r : List Item) : Opens (it :: r) := by
  intro g hg
  rw [group_data h, group_data h]
  cases hv : g.v with
  | none => rw [hv] at hg; cases hg
  | some _ => rfl

/-- white space, if any, then an element -/
theorem group_lead {b : Str} (hb : ∀ c ∈ b, isWs c = true) {it : Item} (h : it.isData = true) (r : List Item) :
    groupLoop {} (wsItems b ++ it :: r) = groupLoop { indent := if b = [] then none else some b, v := some it } r := by
  unfold wsItems
  by_cases h0 : b = []
  · rw [if_pos h0, if_pos h0, List.nil_append, group_data h]
  · rw [if_neg h0, if_neg h0, List.singleton_append, group_ws hb, flush_empty, List.nil_append, group_data h]

theorem opens_lead {b : Str} (hb : ∀ c ∈ b, isWs c = true) {it : Item} (h : it.isData = true) (r : List Item) : Opens (wsItems b ++ it :: r) := by
  unfold wsItems
  by_cases h0 : b = []
  · rw [if_pos h0, List.nil_append]; exact opens_data h r
  · rw [if_neg h0, List.singleton_append]; exact opens_ws hb _

theorem group_tail {b : Str} (hb : ∀ c ∈ b, isWs c = true) : ∃ tl, groupLoop {} (wsItems b) = tl ∧ TailOk tl ∧ (b = [] → tl = []) := by
  unfold wsItems
  by_cases h0 : b = []
  · rw [if_pos h0]; exact ⟨[], rfl, .inl rfl, fun _ => rfl⟩
  · rw [if_neg h0]
    refine ⟨[.noval (some b) none none], ?_, .inr ⟨some b, wsOpt_some hb, rfl⟩, fun h => absurd h h0⟩
    rw [group_ws hb, flush_empty]
    rfl

theorem opens_tail {b : Str} (hb : ∀ c ∈ b, isWs c = true) : Opens (wsItems b) := by
  unfold wsItems
  by_cases h0 : b = []
  · rw [if_pos h0]; exact opens_nil
  · rw [if_neg h0]; exact opens_ws hb _

theorem indent_opt {b : Str} (hb : ∀ c ∈ b, isWs c = true) : WsOpt (if b = [] then none else some b) := by
  split
  · exact wsOpt_none
  · exact wsOpt_some hb

theorem group_comma (i : Option Str) (it : Item) (r : List Item) :
    groupLoop { indent := i, v := some it } (.ws [44] false :: r) = groupLoop { indent := i, v := some it, comma := some [44] } r := by
  rw [groupLoop]; rfl

/-- blanks and line breaks: spaces, then something that ends a value -/
theorem bn_split {b : Str} (hb : ∀ c ∈ b, isWs c = true) (tail : Str) (ht : DateEnds tail) :
    ∃ s t, b = s ++ t ∧ Blank s ∧ DateEnds (t ++ tail) := by
  induction b with
  | nil => exact ⟨[], [], rfl, Blank.nil, ht⟩
  | cons c b ih =>
    obtain ⟨s, t, rfl, h1, h2⟩ := ih fun x hx => hb x (by simp [hx])
    by_cases hc : c = 32
    · refine ⟨c :: s, t, rfl, fun x hx => ?_, h2⟩
      rcases List.mem_cons.1 hx with rfl | hx
      · exact hc
      · exact h1 x hx
    · refine ⟨[], c :: (s ++ t), rfl, Blank.nil, .inr ⟨c, (s ++ t) ++ tail, rfl, ?_⟩⟩
      have := hb c (by simp)
      simp only [isWs, isSpaces, isNl, Bool.or_eq_true, beq_iff_eq] at this
      simp only [isDateEnd, Bool.or_eq_true, beq_iff_eq]
      omega

/-- what reading the elements gives -/
structure TidyItems (z : Bool) (l : List PyVal) (items : List Item) : Prop where
  groups : ∃ vs tl, groupLoop {} items = vs ++ tl ∧ Tidy IsLitm vs tl ∧ (z = true → tl = [])
  all : MeansAll l (items.filter Item.isData)
  opens : Opens items

theorem filter_ws (b : Str) : (wsItems b).filter Item.isData = [] := by unfold wsItems; split <;> rfl

theorem tidyItems_tail {z : Bool} {b : Str} (hb : ∀ c ∈ b, isWs c = true) (hz : z = true → b = []) : TidyItems z [] (wsItems b) := by
  obtain ⟨tl, h1, h2, h3⟩ := group_tail hb
  exact ⟨⟨[], tl, h1, ⟨(fun g hg => by cases hg), trivial, h2⟩, fun h => h3 (hz h)⟩, by rw [filter_ws]; rfl, opens_tail hb⟩

theorem flush_val (x : Option Str) (i : Item) (c : Option Str) : flushGroup { indent := x, v := some i, comma := c } = [.val x i c none] := by
  unfold flushGroup
  rw [if_pos (by simp [GroupSt.nonEmpty])]
  rfl

theorem tidyItems_last {z : Bool} {b b' : Str} {v : PyVal} {i : Item} (hb : ∀ c ∈ b, isWs c = true) (hi : Litm v i)
    (hb' : ∀ c ∈ b', isWs c = true) (hz : z = true → b' = []) : TidyItems z [v] (wsItems b ++ i :: wsItems b') := by
  obtain ⟨tl, h1, h2, h3⟩ := group_tail hb'
  refine ⟨⟨[.val (if b = [] then none else some b) i none none], tl, ?_, ⟨?_, ⟨fun h => absurd rfl h, trivial⟩, h2⟩, fun h => h3 (hz h)⟩, ?_, opens_lead hb hi.isData _⟩
  · rw [group_lead hb hi.isData, opens_tail hb' _ rfl, h1, flush_val]
  · intro g hg
    simp at hg
    subst hg
    exact ⟨_, _, _, rfl, indent_opt hb, .inl rfl, ⟨_, hi⟩⟩
  · rw [List.filter_append, filter_ws, List.nil_append, List.filter_cons_of_pos hi.isData, filter_ws]
    exact ⟨_, _, rfl, hi.means, rfl⟩

theorem tidyItems_more {z : Bool} {b : Str} {v : PyVal} {l : List PyVal} {i : Item} {items : List Item} (hb : ∀ c ∈ b, isWs c = true) (hi : Litm v i)
    (h : TidyItems z l items) : TidyItems z (v :: l) (wsItems b ++ i :: .ws [44] false :: items) := by
  obtain ⟨⟨vs, tl, h1, h2, h3⟩, h4, h5⟩ := h
  refine ⟨⟨.val (if b = [] then none else some b) i (some [44]) none :: vs, tl, ?_, ⟨?_, ⟨fun _ => rfl, h2.commas⟩, h2.tail⟩, h3⟩, ?_, opens_lead hb hi.isData _⟩
  · rw [group_lead hb hi.isData, group_comma, h5 _ rfl, h1, flush_val]
    rfl
  · intro g hg
    rcases List.mem_cons.1 hg with rfl | hg
    · exact ⟨_, _, _, rfl, indent_opt hb, .inr rfl, ⟨_, hi⟩⟩
    · exact h2.vals g hg
  · rw [List.filter_append, filter_ws, List.nil_append, List.filter_cons_of_pos hi.isData, List.filter_cons_of_neg (by decide)]
    exact ⟨_, _, rfl, hi.means, h4⟩

theorem nostart_ws {c : Chr} (h : ¬ NoStart c) : isWs c = false ∧ c ≠ 35 := ⟨(notWs_of_no h).1, (notWs_of_no h).2.1⟩

/-- white space and one element -/
theorem loop_elem {b s : Str} {v : PyVal} (hb : ∀ c ∈ b, isWs c = true) (hs : InnerValue s v) {sp tail : Str} (hsp : Blank sp) (ht : DateEnds tail) (n : Nat)
    (elems : List Item) (e : Str) (a : List Key) (hn : b.length + s.length + 1 < n) :
    ∃ m i st, n ≤ m + b.length + 1 ∧ m < n ∧ arrayLoop n false elems ⟨b ++ (s ++ (sp ++ tail)), e, a, []⟩ = arrayLoop m true (elems ++ (wsItems b ++ [i])) st ∧
      Litm v i ∧ st.aot = a ∧ (∃ sp', (sp' = sp ∨ sp' = []) ∧ st.rest = sp' ++ tail ∧ (sp = [] → sp' = [])) ∧ (sp = [] → st.loss = []) := by
  obtain ⟨d, r, hd, hns⟩ := (inner_reads hs).head
  obtain ⟨hw, h35⟩ := nostart_ws hns
  obtain ⟨m, e', h1, h2, h3⟩ := loop_ws hb false elems hw h35 (r ++ (sp ++ tail)) e a [] n (by omega)
  obtain ⟨m, rfl⟩ : ∃ k, m = k + 1 := ⟨m - 1, by omega⟩
  obtain ⟨i, st, g1, g2, g3, g4, g5, g6⟩ := inner_item hs m sp tail e' a (by omega) hsp ht
  rw [hd, List.cons_append] at g1
  obtain ⟨lg, k1, k2⟩ := arrayLoop_value m (elems ++ wsItems b) _ _ _ _ hns g1
  refine ⟨m, i, { st with loss := lg }, by omega, by omega, ?_, g2, g3, ⟨if i.trivia.commentWs = [] then sp else [], ?_, g4, ?_⟩, ?_⟩
  · rw [hd, List.cons_append, h3, k1, List.append_assoc]
  · split
    · exact .inl rfl
    · exact .inr rfl
  · intro h; split
    · exact h
    · rfl
  · intro h
    exact (k2 (g6 h)).trans g5

theorem isWs_close : isWs 93 = false := rfl

theorem loop_close {b : Str} (hb : ∀ c ∈ b, isWs c = true) (p : Bool) (elems : List Item) (r e : Str) (a : List Key) (lg : List Loss) (n : Nat)
    (hn : b.length + 1 < n) : ∃ st, arrayLoop n p elems ⟨b ++ 93 :: r, e, a, lg⟩ = .ok (elems ++ wsItems b) st ∧ st.rest = r ∧ st.aot = a := by
  obtain ⟨m, e', h1, h2, h3⟩ := loop_ws hb p elems isWs_close (by decide) r e a lg n (by omega)
  obtain ⟨m, rfl⟩ : ∃ k, m = k + 2 := ⟨m - 2, by omega⟩
  obtain ⟨e2, h4⟩ := arrayLoop_close m p (elems ++ wsItems b) r e' a lg
  exact ⟨_, h3.trans h4, rfl, rfl⟩

theorem plain_loop {z : Bool} {t : Str} {l : List PyVal} (h : PlainElements z t l) : ∀ (n : Nat) (tail : Str) (elems : List Item) (e : Str) (a : List Key),
    t.length < n → ∃ items st, arrayLoop n false elems ⟨t ++ tail, e, a, []⟩ = .ok (elems ++ items) st ∧ TidyItems z l items ∧ st.rest = tail ∧ st.aot = a := by
  have hnil : ∀ c ∈ ([] : Str), isWs c = true := fun c hc => by cases hc
  have h93 : ∀ r : Str, DateEnds (93 :: r) := fun r => .inr ⟨93, r, rfl, rfl⟩
  have hpos : ∀ {s : Str} {v : PyVal}, InnerValue s v → 0 < s.length := by
    intro s v h
    obtain ⟨d, r, hd, _⟩ := (inner_reads h).head
    rw [hd]; simp
  induction h with
  | close =>
    intro n tail elems e a hn
    obtain ⟨st, h1, h2⟩ := loop_close hnil false elems tail e a [] n (by simpa using hn)
    exact ⟨_, st, h1, tidyItems_tail hnil (fun _ => rfl), h2⟩
  | blankClose b h hne =>
    intro n tail elems e a hn
    have hb := bn_ws h
    rw [List.append_assoc, List.singleton_append]
    obtain ⟨st, h1, h2⟩ := loop_close hb false elems tail e a [] n (by simpa using hn)
    exact ⟨_, st, h1, tidyItems_tail hb (fun h => by cases h), h2⟩
  | last b s v h he =>
    intro n tail elems e a hn
    have hb := bn_ws h
    have hp := hpos he
    simp only [List.length_append, List.length_singleton] at hn
    obtain ⟨m, i, st, h1, h2, h3, h4, h5, ⟨sp', h6, h7, h8⟩, h9⟩ := loop_elem hb he (sp := []) Blank.nil (h93 tail) n elems e a (by omega)
    rcases st with ⟨r, e2, a2, lg⟩
    simp only at h5 h7 h9
    rw [h8 rfl] at h7
    subst h7 h5
    obtain ⟨st, k1, k2⟩ := loop_close hnil true (elems ++ (wsItems b ++ [i])) tail e2 a2 lg m (by simp; omega)
    refine ⟨wsItems b ++ i :: wsItems [], st, ?_, tidyItems_last hb h4 hnil (fun _ => rfl), k2⟩
    rw [show b ++ (s ++ [93]) ++ tail = b ++ (s ++ ([] ++ 93 :: tail)) by simp, h3]
    refine k1.trans ?_
    simp
  | lastBlank b s v b' h he h' hne =>
    intro n tail elems e a hn
    have hb := bn_ws h
    have hb' := bn_ws h'
    have hp := hpos he
    simp only [List.length_append, List.length_singleton] at hn
    obtain ⟨sp, t, rfl, hsp, ht⟩ := bn_split hb' (93 :: tail) (h93 tail)
    obtain ⟨m, i, st, h1, h2, h3, h4, h5, ⟨sp', h6, h7, h8⟩, h9⟩ := loop_elem hb he hsp ht n elems e a (by omega)
    rcases st with ⟨r, e2, a2, lg⟩
    simp only at h5 h7 h9
    have hrem : (∀ c ∈ sp' ++ t, isWs c = true) ∧ (sp' ++ t).length ≤ (sp ++ t).length := by
      rcases h6 with rfl | rfl
      · exact ⟨hb', Nat.le_refl _⟩
      · exact ⟨fun c hc => hb' c (List.mem_append_right _ hc), by simp⟩
    have hlen : (sp ++ t).length = sp.length + t.length := List.length_append
    subst h7 h5
    obtain ⟨st, k1, k2⟩ := loop_close hrem.1 true (elems ++ (wsItems b ++ [i])) tail e2 a2 lg m (by omega)
    refine ⟨wsItems b ++ i :: wsItems (sp' ++ t), st, ?_, tidyItems_last hb h4 hrem.1 (fun h => by cases h), k2⟩
    rw [show b ++ (s ++ (sp ++ t ++ [93])) ++ tail = b ++ (s ++ (sp ++ (t ++ 93 :: tail))) by simp, h3,
      show sp' ++ (t ++ 93 :: tail) = sp' ++ t ++ 93 :: tail by simp]
    refine k1.trans ?_
    simp
  | more z b s v r l h he hr ih =>
    intro n tail elems e a hn
    have hb := bn_ws h
    have hp := hpos he
    simp only [List.length_append, List.length_cons] at hn
    obtain ⟨m, i, st, h1, h2, h3, h4, h5, ⟨sp', h6, h7, h8⟩, h9⟩ := loop_elem hb he (sp := []) (tail := 44 :: (r ++ tail)) Blank.nil
      (.inr ⟨44, _, rfl, rfl⟩) n elems e a (by omega)
    rcases st with ⟨r', e2, a2, lg⟩
    simp only at h5 h7 h9
    rw [h8 rfl] at h7
    have h9 := h9 trivial
    subst h7 h5 h9
    obtain ⟨m, rfl⟩ : ∃ k, m = k + 1 := ⟨m - 1, by omega⟩
    have hne : r ++ tail ≠ [] := by
      cases hr <;> simp
    obtain ⟨items, st, k1, k2, k3⟩ := ih m tail (elems ++ (wsItems b ++ [i]) ++ [.ws [44] false]) (e2 ++ [44]) a2 (by omega)
    refine ⟨wsItems b ++ i :: .ws [44] false :: items, st, ?_, tidyItems_more hb h4 k2, k3⟩
    rw [show b ++ (s ++ 44 :: r) ++ tail = b ++ (s ++ ([] ++ 44 :: (r ++ tail))) by simp, h3]
    refine (arrayLoop_comma m _ (r ++ tail) e2 a2 [] hne).trans ?_
    rw [k1]
    simp

end Tomlkit
