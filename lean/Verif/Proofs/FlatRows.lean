import Verif.Proofs.FlatOps
import Verif.Proofs.DocBuild
import Verif.Props.Containers
import Verif.Props.Readback
/-!
# The lines of a document under edits
-/
namespace Tomlkit
open _root_.Spec Tomlkit.Spec

/-- the item unwraps to a value equal to `w` -/
def Worth (w : PyVal) (v : Item) : Prop := ∃ w', (∃ n0, ∀ n ≥ n0, v.unwrap n = .ok w') ∧ Same w w'

theorem Worth.setTrivia {w : PyVal} {v : Item} (h : Worth w v) (t : Trivia) : Worth w (v.setTrivia t) := by
  obtain ⟨w', ⟨n0, h1⟩, h2⟩ := h
  exact ⟨w', ⟨n0, fun n hn => by rw [unwrap_setTrivia]; exact h1 n hn⟩, h2⟩

/-- the comment of the trivia is this one; when `q` holds, nothing but the line end follows it -/
structure Noted (q : Prop) (t : Trivia) (cm : Option Str) : Prop where
  bare : bareComment t = cm.getD []
  some : cm ≠ some []
  tight : q → spacesOf t.trail = []

theorem Noted.of {q : Prop} {t : Trivia} {cm : Option Str} (h : Noted q t cm) : commentOf t = cm.toList.map (· ++ spacesOf t.trail) := by
  unfold commentOf
  rw [h.bare]
  cases cm with
  | none => rfl
  | some s =>
    rw [if_neg]
    · rfl
    · intro h0
      exact h.some (congrArg Option.some h0)

/-- the entries are these lines -/
inductive Rows (q : Prop) : List Entry → List Line → Prop
  | nil : Rows q [] []
  | none {v : Item} {es : List Entry} {ls : List Line} (hv : commentOf v.trivia = []) (h : Rows q es ls) : Rows q (.mk none v :: es) ls
  | cmt {t : Trivia} {s : Str} {es : List Entry} {ls : List Line} (ht : Noted q t (some s)) (h : Rows q es ls) :
      Rows q (.mk none (.comment t) :: es) (.comment s :: ls)
  | kv {k : SKey} {v : Item} {w : PyVal} {cm : Option Str} {es : List Entry} {ls : List Line} (hw : Worth w v)
      (ht : Noted q v.trivia cm) (h : Rows q es ls) : Rows q (.mk (some k) v :: es) (.item k.key w cm :: ls)

theorem Rows.append {q : Prop} {a b : List Entry} {la lb : List Line} (ha : Rows q a la) (hb : Rows q b lb) : Rows q (a ++ b) (la ++ lb) := by
  induction ha with
  | nil => exact hb
  | none hv _ ih => exact .none hv ih
  | cmt ht _ ih => exact .cmt ht ih
  | kv hw ht _ ih => exact .kv hw ht ih

theorem Rows.split {q : Prop} {a b : List Entry} {ls : List Line} (h : Rows q (a ++ b) ls) : ∃ la lb, ls = la ++ lb ∧ Rows q a la ∧ Rows q b lb := by
  induction a generalizing ls with
  | nil => exact ⟨[], ls, rfl, .nil, h⟩
  | cons e r ih =>
    cases h with
    | none hv h =>
      obtain ⟨la, lb, rfl, h1, h2⟩ := ih h
      exact ⟨la, lb, rfl, .none hv h1, h2⟩
    | cmt ht h =>
      obtain ⟨la, lb, rfl, h1, h2⟩ := ih h
      exact ⟨_ :: la, lb, rfl, .cmt ht h1, h2⟩
    | kv hw ht h =>
      obtain ⟨la, lb, rfl, h1, h2⟩ := ih h
      exact ⟨_ :: la, lb, rfl, .kv hw ht h1, h2⟩

theorem itemsOf_cons (l : Line) (r : List Line) : itemsOf (l :: r) = (match l with | .item k w _ => [.mk k w] | .comment _ => []) ++ itemsOf r := by
  cases l <;> rfl

theorem Rows.keys {q : Prop} {es : List Entry} {ls : List Line} (h : Rows q es ls) : keysOf es = (itemsOf ls).map PyPair.key := by
  unfold keysOf
  induction h with
  | nil => rfl
  | none hv _ ih => rw [knowns_cons_none]; exact ih
  | cmt ht _ ih => rw [knowns_cons_none, itemsOf_cons]; exact ih
  | kv hw ht _ ih => rw [knowns_cons_some, itemsOf_cons, List.map_cons, ih]; rfl

theorem Rows.keyLines {q : Prop} {es : List Entry} {ls : List Line} (h : Rows q es ls) : keysOf es = ls.filterMap Line.key? := by
  unfold keysOf
  induction h with
  | nil => rfl
  | none hv _ ih => rw [knowns_cons_none]; exact ih
  | cmt ht _ ih => rw [knowns_cons_none]; exact ih
  | kv hw ht _ ih => rw [knowns_cons_some, List.map_cons, ih]; rfl

theorem Rows.notes {es : List Entry} {ls : List Line} (h : Rows True es ls) : commentsOf es = notesOf ls := by
  induction h with
  | nil => rfl
  | none hv _ ih => rw [commentsOf_cons, ih, Entry.v_mk, hv]; rfl
  | @cmt t s es ls ht _ ih =>
    rw [commentsOf_cons, ih]
    have e : commentOf (Entry.mk Option.none (.comment t)).v.trivia = [s ++ spacesOf t.trail] := ht.of
    rw [e, ht.tight trivial, List.append_nil]; rfl
  | @kv k v w cm es ls hw ht _ ih =>
    rw [commentsOf_cons, ih, Entry.v_mk, ht.of, ht.tight trivial]
    have e : notesOf (.item k.key w cm :: ls) = cm.toList ++ notesOf ls := rfl
    rw [e]; simp

theorem spaces_spacesOf (s : Str) : Spaces (spacesOf s) := fun c hc => by
  unfold spacesOf at hc
  induction s with
  | nil => cases hc
  | cons a r ih =>
    rw [List.takeWhile_cons] at hc
    split at hc
    · rcases List.mem_cons.1 hc with rfl | hc
      · assumption
      · exact ih hc
    · cases hc

theorem Rows.notesLoose {q : Prop} {es : List Entry} {ls : List Line} (h : Rows q es ls) : ListRel EqualUpToSpaces (commentsOf es) (notesOf ls) := by
  induction h with
  | nil => exact .nil
  | none hv _ ih => rw [commentsOf_cons, Entry.v_mk, hv]; exact ih
  | @cmt t s es ls ht _ ih =>
    rw [commentsOf_cons]
    have : commentOf (Entry.mk Option.none (.comment t)).v.trivia = [s ++ spacesOf t.trail] := by
      have := ht.of
      exact this
    rw [this]
    have e : notesOf (.comment s :: ls) = s :: notesOf ls := rfl
    rw [e]
    exact .cons ⟨_, spaces_spacesOf _, rfl⟩ ih
  | @kv k v w cm es ls hw ht _ ih =>
    rw [commentsOf_cons, Entry.v_mk, ht.of]
    have e : notesOf (.item k.key w cm :: ls) = cm.toList ++ notesOf ls := rfl
    rw [e]
    cases cm with
    | none => exact ih
    | some s => exact .cons ⟨_, spaces_spacesOf _, rfl⟩ ih

/-- lines that are passed over hold nothing -/
theorem Rows.skipped {q : Prop} {es : List Entry} {ls : List Line} (h : Rows q es ls) (hf : FlatBody es) (hs : ∀ e ∈ es, Skipped e) : ls = [] := by
  induction h with
  | nil => rfl
  | none _ _ ih => exact ih hf.2 fun e he => hs e (by simp [he])
  | @cmt t s es ls ht _ ih => rcases hs (.mk Option.none (.comment t)) (by simp) with ⟨t, h⟩ | ⟨s, h⟩ <;> cases h
  | @kv k v w cm es ls hw ht _ ih =>
    obtain ⟨⟨cl, h1, _⟩, _⟩ := hf
    cases h1 with
    | kv hk hv h =>
      rcases hs (.mk (some k) v) (by simp) with ⟨t, h⟩ | ⟨s, h⟩ <;> rw [Entry.v_mk] at h <;> subst h
      · cases hv.2.2.1
      · cases hv.2.1

theorem Noted.trail {q : Prop} {t : Trivia} {cm : Option Str} (h : Noted q t cm) {x : Str} (hx : spacesOf x = spacesOf t.trail) :
    Noted q { t with trail := x } cm := ⟨h.bare, h.some, fun hq => by rw [← h.tight hq]; exact hx⟩

theorem spacesOf_close (s : Str) (h : hasNl s = false) : spacesOf (s ++ [10]) = spacesOf s := by
  unfold spacesOf
  induction s with
  | nil => rfl
  | cons a r ih =>
    rw [List.cons_append, List.takeWhile_cons, List.takeWhile_cons]
    have : hasNl r = false := by
      unfold hasNl at h ⊢
      rw [List.contains_cons, Bool.or_eq_false_iff] at h
      exact h.2
    rw [ih this]

theorem Rows.close {q : Prop} {e : Entry} {b : List Entry} {ls : List Line} {cl : Bool} (h : Rows q (e :: b) ls) (he : FEnt e cl) (hs : ¬ Skipped e) : Rows q (closeEntry e :: b) ls := by
  by_cases hc : (e.v.isWhitespace || endsWithWs e.v || hasNl e.v.trivia.trail) = true
  · have : closeEntry e = e := by unfold closeEntry; rw [if_pos hc]
    rw [this]; exact h
  · have hcl : closeEntry e = .mk e.key (e.v.setTrivia { e.v.trivia with trail := e.v.trivia.trail ++ [10] }) := by
      unfold closeEntry; rw [if_neg hc]
    rw [hcl]
    simp only [Bool.not_eq_true, Bool.or_eq_false_iff] at hc
    have hsp := spacesOf_close _ hc.2
    cases h with
    | @none v es _ hv h =>
      cases he with
      | null => exact absurd (.inl ⟨_, rfl⟩) hs
      | ws => cases hc.1.1
      | @cmt t _ _ hne =>
        have : commentOf (Item.comment t).trivia ≠ [] := by
          show commentOf t ≠ []
          unfold commentOf; rw [if_neg hne]; simp
        exact absurd hv this
    | cmt ht h => exact .cmt (ht.trail hsp) h
    | kv hw ht h =>
      refine .kv (hw.setTrivia _) ?_ h
      have h0 : ∀ t, (Item.setTrivia t (Entry.mk (some _) _).v).trivia = t := fun t => setTrivia_trivia hc.1.1 t
      exact (h0 _).symm ▸ ht.trail hsp

/-- a value made by the library that stays on its line -/
structure Made (w : PyVal) (v : Item) : Prop where
  put : Puttable v
  worth : Worth w v
  noComment : v.trivia.comment = []
  noWs : v.trivia.commentWs = []
  trail : v.trivia.trail = [10]

theorem oneLine_noTable {w : PyVal} {p : Parent} (h : OneLine w p) {v : Item} (hv : w.toItem false p = .ok v) : v.isTableLike = false := by
  obtain ⟨_, _, h1, h2⟩ := h
  rcases w with _ | _ | _ | _ | _ | _ | _ | _ | l | l <;> unfold PyVal.toItem at hv <;> try (cases hv; rfl)
  · cases hv
  · split at hv
    · rename_i hc
      simp only [Bool.and_eq_true, Bool.not_eq_true', List.isEmpty_eq_false_iff, List.all_eq_true, Bool.or_eq_true, decide_eq_true_eq] at hc
      rcases h2 l rfl with rfl | ⟨x, hx, h0⟩ | rfl | rfl
      · exact absurd rfl hc.1.1
      · rw [hc.1.2 x hx] at h0; cases h0
      · rcases hc.2 with h | h <;> cases h
      · rcases hc.2 with h | h <;> cases h
    · rcases ht : l.toElems false with e | is <;> rw [ht] at hv
      · cases hv
      · exact buildArray_noTable hv
  · rcases h1 l rfl with rfl | rfl <;> dsimp only at hv <;> rcases ht : l.toChildren false .inline with e | cs <;> rw [ht] at hv <;>
      first
        | cases hv
        | (rcases hb : buildInline (dictOrder false cs) with e | c <;> simp only [hb] at hv <;> cases hv
           rfl)

theorem oneLine_made {w : PyVal} {p : Parent} (h : OneLine w p) : ∃ v, w.toItem false p = .ok v ∧ Made w v := by
  obtain ⟨v, w', h1, h2, h3⟩ := item_holds w h.1 (writable_noNone h.2.1) false p
  have hn := oneLine_noTable h h1
  obtain ⟨w2, hf⟩ := item_lit w h.1 h.2.1 false p v h1 hn
  have ht := plain_trivia h1 hn
  refine ⟨v, h1, ⟨hf.lit.rereads, ?_⟩, ⟨w', holds_unwrap w' h2, h3⟩, hf.triv.comment, hf.triv.cws, ht⟩
  refine ⟨(by rw [hf.triv.indent]; intro c hc; cases hc), (by rw [hf.triv.cws]; intro c hc; cases hc), ⟨[], [], hf.triv.comment, (by intro c hc; cases hc), cmt_nil⟩, [], [10], ht, (by intro c hc; cases hc), .inl ⟨rfl, .inl rfl⟩⟩

theorem Made.noted {w : PyVal} {v : Item} (h : Made w v) (q : Prop) : Noted q v.trivia none :=
  ⟨by unfold bareComment; rw [h.noComment]; rfl, by simp, fun _ => by rw [h.trail]; rfl⟩

/-- a document of lines and what its lines are; when `z` holds, all its lines are closed -/
structure Ed (q z : Prop) (c : Cont) (ls : List Line) : Prop where
  doc : FlatDoc c
  shut : z → Shut c.body
  rows : Rows q c.body ls

theorem hasItem_iff {ls : List Line} {k : Str} : hasItem ls k = true ↔ k ∈ ls.filterMap Line.key? := by
  unfold hasItem
  rw [List.any_eq_true, List.mem_filterMap]
  simp

theorem Ed.has {q z : Prop} {c : Cont} {ls : List Line} (h : Ed q z c ls) (k : Str) : (hasItem ls k = true ↔ k ∈ c.dict) := by
  rw [hasItem_iff, h.doc.keys, h.rows.keyLines]

theorem Ed.absent {q z : Prop} {c : Cont} {ls : List Line} (h : Ed q z c ls) {k : Str} (hk : hasItem ls k = false) : mapGet k c.map = none := by
  rcases hm : mapGet k c.map with _ | is
  · rfl
  · have := (h.doc.wf.dictMem k).2 (by rw [hm]; rfl)
    rw [(h.has k).2 this] at hk; cases hk

theorem Ed.present {q z : Prop} {c : Cont} {ls : List Line} (h : Ed q z c ls) {k : Str} (hk : hasItem ls k = true) :
    ∃ i key old, mapGet k c.map = some [i] ∧ c.body[i]? = some (.mk (some key) old) ∧ key.key = k := by
  obtain ⟨is, hm⟩ := Option.isSome_iff_exists.1 ((h.doc.wf.dictMem k).1 ((h.has k).1 hk))
  obtain ⟨i, key, old, rfl, hb, hkk, _⟩ := single_of_plain h.doc.wf (flat_holds h.doc.flat) hm
  exact ⟨i, key, old, hm, hb, hkk⟩

/-- a new key -/
theorem Ed.new {q z : Prop} {c : Cont} {ls : List Line} (h : Ed q z c ls) {k : Str} (hk : hasItem ls k = false) {w : PyVal} {v : Item} (hv : Made w v) :
    ∃ c', Cont.append true c (some (.single (mkKey k))) v = .ok (c', false) ∧ Ed q z c' (ls ++ [.item k w none]) := by
  have hm := h.absent hk
  have hm' : mapGet (mkKey k).key c.map = none := by rw [mkKey_key]; exact hm
  obtain ⟨d, hd⟩ := C12_every_container_is_a_dict c (consistent_of_WF h.doc.wf) h.doc.flat
  have hnd : d.has k = false := by
    rw [← Bool.not_eq_true]; intro h0
    have := (C12_reads c d hd k).2.1.2 h0
    rw [(h.has k).2 this] at hk; cases hk
  obtain ⟨c', hr, _⟩ := (dict_step .doc ⟨h.doc.wf, h.doc.flat, hd⟩ (.append k v) hv.put.reads.1).1 (d.set k v.pyValue) (by
    show (if d.has k then _ else _) = _
    rw [hnd]; rfl)
  have hr' : (Cont.append true c (some (.single (mkKey k))) v).map Prod.fst = .ok c' := hr
  have ha : Cont.append true c (some (.single (mkKey k))) v = .ok (c', false) := by
    rw [append_plain_new hv.put.reads.1 hm'] at hr' ⊢
    rcases hx : c.appendTail (some (mkKey k)) v with e | c2 <;> rw [hx] at hr' <;> cases hr'
    rfl
  refine ⟨c', ha, ?_⟩
  obtain ⟨h1, h2⟩ := h.doc.new hm hv.put ha
  refine ⟨h1, fun hz => h2 (h.shut hz), ?_⟩
  rw [append_plain_new hv.put.reads.1 hm'] at ha
  rcases hx : c.appendTail (some (mkKey k)) v with e | c2 <;> rw [hx] at ha <;> cases ha
  obtain ⟨_, h3⟩ := appendTail_body h.doc.parsed h.doc.flat hv.put.reads.1 hm' hx
  have hnew : Rows q [.mk (some (mkKey k)) v] [.item k w none] := by
    have := Rows.kv (k := mkKey k) hv.worth (hv.noted q) .nil
    rwa [mkKey_key] at this
  rcases h3 with ⟨hs, hb⟩ | ⟨a, e, b, hb, he, hs, hb'⟩
  · have h0 := h.rows.skipped h.doc.body hs
    have hh := h.rows
    rw [h0] at hh ⊢
    rw [hb]
    exact hnew.append hh
  · have hh := h.rows
    have hbody := h.doc.body
    rw [hb] at hh hbody
    obtain ⟨la, lb, rfl, r1, r2⟩ := hh.split
    obtain ⟨⟨cl, e1, _⟩, e3⟩ := hbody.right
    have r3 := r2.close e1 he
    have e4 : closeEntry e :: b = [closeEntry e] ++ b := rfl
    rw [e4] at r3
    obtain ⟨le, lb', rfl, r4, r5⟩ := r3.split
    have h0 := r5.skipped e3 hs
    subst h0
    rw [hb']
    have e5 : a ++ closeEntry e :: .mk (some (mkKey k)) v :: b = (a ++ [closeEntry e]) ++ ([.mk (some (mkKey k)) v] ++ b) := by simp
    rw [e5]
    have := (r1.append r4).append (hnew.append r5)
    simpa using this

/-- changing the item of a key: what the lines become -/
theorem Rows.change {q : Prop} {a b : List Entry} {key : SKey} {old v : Item} {ls : List Line} (h : Rows q (a ++ .mk (some key) old :: b) ls)
    (hd : (keysOf (a ++ .mk (some key) old :: b)).Nodup) (f : PyVal → PyVal) (g : Option Str → Option Str)
    (hv : ∀ w cm, Worth w old → Noted q old.trivia cm → Worth (f w) v ∧ Noted q v.trivia (g cm)) :
    Rows q (a ++ .mk (some key) v :: b) (ls.map fun l => match l with
      | .item k' w' c => if k' = key.key then .item k' (f w') (g c) else .item k' w' c
      | .comment s => .comment s) := by
  have hstay : ∀ {es : List Entry} {ls : List Line}, Rows q es ls → key.key ∉ keysOf es → (ls.map fun l => match l with
      | .item k' w' c => if k' = key.key then Line.item k' (f w') (g c) else .item k' w' c
      | .comment s => .comment s) = ls := by
    intro es ls h hk
    have hk' : key.key ∉ ls.filterMap Line.key? := by rw [← h.keyLines]; exact hk
    clear h hk
    induction ls with
    | nil => rfl
    | cons l r ih =>
      cases l with
      | item k' w' c =>
        have : (Line.item k' w' c :: r).filterMap Line.key? = k' :: r.filterMap Line.key? := rfl
        rw [this] at hk'
        rw [List.map_cons, ih fun h0 => hk' (List.mem_cons_of_mem _ h0)]
        dsimp only
        rw [if_neg fun (h0 : k' = key.key) => hk' (by rw [h0]; simp)]
      | comment s =>
        have : (Line.comment s :: r).filterMap Line.key? = r.filterMap Line.key? := rfl
        rw [this] at hk'
        rw [List.map_cons, ih hk']
  obtain ⟨la, lb, rfl, h1, h2⟩ := h.split
  have e1 : ∀ x : Entry, a ++ x :: b = a ++ ([x] ++ b) := fun x => by simp
  rw [e1] at hd
  simp only [keysOf_append, keysOf_single, Entry.key_mk] at hd
  rw [List.nodup_append] at hd
  obtain ⟨_, h4, h5⟩ := hd
  rw [List.cons_append, List.nil_append, List.nodup_cons] at h4
  cases h2 with
  | @kv _ _ w cm _ lr hw ht h' =>
    obtain ⟨q1, q2⟩ := hv w cm hw ht
    rw [List.map_append, hstay h1 (fun h0 => h5 _ h0 key.key (by simp) rfl), List.map_cons, hstay h' h4.1]
    dsimp only
    rw [if_pos rfl]
    exact h1.append (.kv q1 q2 h')

theorem Rows.drop {q : Prop} {a b : List Entry} {key : SKey} {old : Item} {ls : List Line} (h : Rows q (a ++ .mk (some key) old :: b) ls)
    (hd : (keysOf (a ++ .mk (some key) old :: b)).Nodup) :
    Rows q (a ++ Entry.nullEntry :: b) (ls.filter fun l => !(l.key? == some key.key)) := by
  have hstay : ∀ {es : List Entry} {ls : List Line}, Rows q es ls → key.key ∉ keysOf es → (ls.filter fun l => !(l.key? == some key.key)) = ls := by
    intro es ls h hk
    have hk' : key.key ∉ ls.filterMap Line.key? := by rw [← h.keyLines]; exact hk
    rw [List.filter_eq_self]
    intro l hl
    rw [List.mem_filterMap] at hk'
    simp only [Bool.not_eq_true', beq_eq_false_iff_ne]
    intro h0
    exact hk' ⟨l, hl, h0⟩
  obtain ⟨la, lb, rfl, h1, h2⟩ := h.split
  have e1 : ∀ x : Entry, a ++ x :: b = a ++ ([x] ++ b) := fun x => by simp
  rw [e1] at hd
  simp only [keysOf_append, keysOf_single, Entry.key_mk] at hd
  rw [List.nodup_append] at hd
  obtain ⟨_, h4, h5⟩ := hd
  rw [List.cons_append, List.nil_append, List.nodup_cons] at h4
  cases h2 with
  | @kv _ _ w cm _ lr hw ht h' =>
    rw [List.filter_append, hstay h1 (fun h0 => h5 _ h0 key.key (by simp) rfl), List.filter_cons_of_neg (by simp [Line.key?]), hstay h' h4.1]
    exact h1.append (.none rfl h')

theorem head_strip (s : Str) : (strip s).head? = (s.dropWhile isUniSpace).head? := by
  unfold strip
  rcases h : s.dropWhile isUniSpace with _ | ⟨a, r⟩
  · rfl
  · have ha : isUniSpace a = false := by
      have := List.head?_dropWhile_not isUniSpace s
      rw [h] at this
      simpa using this
    have : ∀ l : Str, ((l ++ [a]).dropWhile isUniSpace).reverse.head? = some a := by
      intro l
      induction l with
      | nil => simp [ha]
      | cons x l ih =>
        rw [List.cons_append, List.dropWhile_cons]
        split
        · exact ih
        · simp
    rw [List.reverse_cons, this]; rfl

theorem takeWhile_spaces {s : Str} (h : ∀ x ∈ s.takeWhile isUniSpace, isSpaces x = true) (hh : (s.dropWhile isUniSpace).head? = some 35) :
    ∃ s0 r, s = s0 ++ 35 :: r ∧ Spaces s0 ∧ s.dropWhile isSpaces = 35 :: r := by
  rcases hd : s.dropWhile isUniSpace with _ | ⟨a, r⟩ <;> rw [hd] at hh
  · cases hh
  · have ha : a = 35 := by simpa using hh
    subst ha
    have e : s = s.takeWhile isUniSpace ++ 35 :: r := by rw [← hd, List.takeWhile_append_dropWhile]
    refine ⟨_, r, e, h, ?_⟩
    conv => lhs; rw [e]
    rw [List.dropWhile_append_of_pos h]; rfl

/-- the trivia of an item that was given a comment -/
theorem noted_note {q : Prop} {t : Trivia} {cl : Bool} (h : LineTrivia t cl) (hq : q → spacesOf t.trail = []) {s : Str} (hs : OneLineText s)
    (hw : (s.dropWhile isUniSpace).head? = some 35 → ∀ x ∈ s.takeWhile isUniSpace, isSpaces x = true) :
    LineTrivia { t with commentWs := [32], comment := storedComment s } cl ∧
    Noted q { t with commentWs := [32], comment := storedComment s } (some (noteText s)) := by
  have hsp : Spaces [32] := fun c hc => by rw [List.mem_singleton] at hc; subst hc; rfl
  have key : ∃ s0 cm, storedComment s = s0 ++ 35 :: cm ∧ Spaces s0 ∧ (∀ x ∈ cm, isCommentChar x = true) ∧ noteText s = 35 :: cm := by
    unfold storedComment noteText
    rw [head_strip]
    split
    · rename_i hh
      obtain ⟨s0, r, h1, h2, h3⟩ := takeWhile_spaces (hw hh) hh
      exact ⟨s0, r, h1, h2, fun x hx => hs x (by rw [h1]; simp [hx]), h3⟩
    · refine ⟨[], 32 :: s, rfl, (by intro c hc; cases hc), fun x hx => ?_, rfl⟩
      rcases List.mem_cons.1 hx with rfl | hx
      · rfl
      · exact hs x hx
  obtain ⟨s0, cm, h1, h2, h3, h4⟩ := key
  refine ⟨⟨h.indent, hsp, ⟨s0, 35 :: cm, h1, h2, cmt_some h3⟩, h.trail⟩, ⟨?_, by rw [h4]; simp, hq⟩⟩
  unfold bareComment
  show (storedComment s).dropWhile isSpaces = noteText s
  rw [h1, h4]
  exact cmt_bare h2 (cmt_some h3)

theorem modify_set {α : Type} {l : List α} {i : Nat} {x : α} (h : l[i]? = some x) (f : α → α) : l.modify i f = l.set i (f x) := by
  obtain ⟨a, b, h1, h2, h3⟩ := set_split h (f x)
  rw [h2, h1, ← h3]
  clear h h1 h2 h3
  induction a with
  | nil => simp
  | cons y a ih => rw [List.cons_append, List.length_cons, List.modify_succ_cons, ih]; rfl

theorem line_congr {ls : List Line} {k : Str} {f g : Line → Line} (h : ∀ l, f l = g l) : ls.map f = ls.map g := by
  congr 1; funext l; exact h l

/-- One edit: the library does what is meant. -/
theorem Ed.step {q z : Prop} {c : Cont} {ls : List Line} (h : Ed q z c ls) {e : Edit} (he : e.Fit) (hz : e.addsLine → z) :
    (∀ ls', e.onLines ls = .ok ls' → ∃ c', e.run c = .ok c' ∧ Ed q z c' ls') ∧ (∀ err, e.onLines ls = .error err → e.run c = .error err) := by
  have hnd : (keysOf c.body).Nodup := by have := h.doc.wf.dictNodup; rw [h.doc.keys] at this; exact this
  cases e with
  | set k w p =>
    obtain ⟨v, hv, hm⟩ := oneLine_made he
    have hrun : (Edit.set k w p).run c = c.setItem k v := by
      show (match w.toItem false p with | .error e => _ | .ok v => _) = _
      rw [hv]; rfl
    rw [hrun]
    unfold Edit.onLines
    dsimp only
    by_cases hk : hasItem ls k = true
    · rw [if_pos hk]
      refine ⟨fun ls' h' => ?_, fun err h' => by cases h'⟩
      cases h'
      obtain ⟨i, key, old, hmap, hb, hkk⟩ := h.present hk
      have hpl := h.doc.flat _ (List.mem_of_getElem? hb)
      have hset : c.setItem k v = .ok (.mk (c.body.set i (.mk (some key) (retrivia v old))) (mapSet k [i] (mapDel k c.map)) c.dict
          c.parsed c.tableKeys) := by
        unfold Cont.setItem
        rw [fuelFor, has_single hmap, hmap]
        dsimp only
        rw [replaceAt_plain hb hkk hpl hm.put.reads.1]
      refine ⟨_, hset, ?_⟩
      obtain ⟨h1, h2⟩ := h.doc.set hm.put hset
      refine ⟨h1, fun hz => h2 (h.shut hz), ?_⟩
      obtain ⟨a, b, e1, e2, _⟩ := set_split hb (.mk (some key) (retrivia v old))
      have hr := h.rows
      rw [Cont.body_mk, e2]
      rw [e1] at hr hnd
      have hne : old.isWhitespace = false := by
        obtain ⟨cl, hf⟩ := h.doc.body.mem (List.mem_of_getElem? hb)
        cases hf with
        | kv _ hv _ => exact hv.2.1
      have he : retrivia v old = v.setTrivia (copyTrivia old.trivia v.trivia) := by
        unfold retrivia
        rw [if_neg]
        have h1 := hm.put.reads.1
        simp only [Item.isTableLike, Bool.or_eq_false_iff] at h1
        simp [hm.put.reads.2.1, h1.2]
      have := hr.change (v := retrivia v old) hnd (fun _ => w) id (fun w0 cm _ hn => by
        rw [he, setTrivia_trivia hm.put.reads.2.1]
        refine ⟨hm.worth.setTrivia _, ?_, hn.some, hn.tight⟩
        unfold bareComment copyTrivia
        dsimp only
        rw [hm.noComment]
        exact hn.bare)
      refine (congrArg (Rows q _) (line_congr (k := k) fun l => ?_)).mp this
      cases l with
      | comment => rfl
      | item k' w' cm =>
        dsimp only
        rw [hkk]
        split
        · rename_i h0; rw [h0]; rfl
        · rfl
    · rw [if_neg hk]
      refine ⟨fun ls' h' => ?_, fun err h' => by cases h'⟩
      cases h'
      have hk' : hasItem ls k = false := by simpa using hk
      obtain ⟨c', h1, h2⟩ := h.new hk' hm
      refine ⟨c', ?_, h2⟩
      unfold Cont.setItem
      rw [fuelFor, has_absent (h.absent hk')]
      dsimp only
      rw [h1]; rfl
  | add k w p =>
    obtain ⟨v, hv, hm⟩ := oneLine_made he
    have hrun : (Edit.add k w p).run c = (Cont.append true c (some (.single (mkKey k))) v).map Prod.fst := by
      show (match w.toItem false p with | .error e => _ | .ok v => _) = _
      rw [hv]; rfl
    rw [hrun]
    unfold Edit.onLines
    dsimp only
    by_cases hk : hasItem ls k = true
    · rw [if_pos hk]
      refine ⟨fun ls' h' => (by cases h'), fun err h' => ?_⟩
      cases h'
      obtain ⟨i, key, old, hmap, hb, hkk⟩ := h.present hk
      rw [append_plain_present h.doc.wf hm.put.reads.1 (by rw [mkKey_key]; exact hmap)]; rfl
    · rw [if_neg hk]
      refine ⟨fun ls' h' => ?_, fun err h' => by cases h'⟩
      cases h'
      obtain ⟨c', h1, h2⟩ := h.new (by simpa using hk) hm
      exact ⟨c', by rw [h1]; rfl, h2⟩
  | remove k =>
    have hrun : (Edit.remove k).run c = c.remove k := rfl
    rw [hrun]
    unfold Edit.onLines
    dsimp only
    by_cases hk : hasItem ls k = true
    · rw [if_pos hk]
      refine ⟨fun ls' h' => ?_, fun err h' => by cases h'⟩
      cases h'
      obtain ⟨i, key, old, hmap, hb, hkk⟩ := h.present hk
      obtain ⟨c', hc'⟩ : ∃ c', c.remove k = .ok c' := by
        unfold Cont.remove; rw [hmap]; exact ⟨_, rfl⟩
      obtain ⟨h1, h2⟩ := h.doc.remove hc'
      refine ⟨c', hc', h1, fun hz => h2 (h.shut hz), ?_⟩
      unfold Cont.remove at hc'
      rw [hmap] at hc'
      cases hc'
      obtain ⟨a, b, e1, e2, _⟩ := set_split hb Entry.nullEntry
      have hnull : nullAt [i] c.body = c.body.set i Entry.nullEntry := rfl
      rw [Cont.body_mk, hnull, e2, ← hkk]
      have hr := h.rows
      rw [e1] at hr hnd
      exact hr.drop hnd
    · rw [if_neg hk]
      refine ⟨fun ls' h' => (by cases h'), fun err h' => ?_⟩
      cases h'
      unfold Cont.remove
      rw [h.absent (by simpa using hk)]
  | comment s =>
    have hc : ∀ x ∈ s, isCommentChar x = true := he
    have ht : LineTrivia { commentWs := t!"  ", comment := t!"# " ++ s } true :=
      ⟨(by intro c hc; cases hc), (fun c hc => by
        have : c = 32 := by simpa using hc
        subst this; rfl), ⟨[], 35 :: 32 :: s, rfl, (by intro c hc; cases hc), cmt_some (fun x hx => by
          rcases List.mem_cons.1 hx with rfl | hx
          · rfl
          · exact hc x hx)⟩, [], [10], rfl, (by intro c hc; cases hc), .inl ⟨rfl, .inl rfl⟩⟩
    have hb : bareComment { commentWs := t!"  ", comment := t!"# " ++ s } = 35 :: 32 :: s := rfl
    have hE : FEnt (.mk none (apiComment s)) true := .cmt ht (by rw [hb]; simp)
    refine ⟨fun ls' h' => ?_, fun err h' => by cases h'⟩
    cases h'
    refine ⟨_, by show (Cont.append true c none (apiComment s)).map Prod.fst = _
                  rw [append_none_plain rfl]; rfl, h.doc.add (h.shut (hz trivial)) hE, ?_, ?_⟩
    · intro hz x hx
      rcases List.mem_append.1 hx with hx | hx
      · exact h.shut hz x hx
      · rw [List.mem_singleton] at hx; rw [hx]; exact hE
    · refine h.rows.append (.cmt ⟨hb, by simp, fun _ => rfl⟩ .nil)
  | nl =>
    have hE : FEnt (.mk none (apiWs [10])) true := .ws (.line (s := []) (nl := [10]) (t := []) (by intro c hc; cases hc) (.inl ⟨rfl, .inl rfl⟩) .nil) (fun _ => rfl)
    refine ⟨fun ls' h' => ?_, fun err h' => by cases h'⟩
    cases h'
    refine ⟨_, by show (Cont.append true c none (apiWs [10])).map Prod.fst = _
                  rw [append_none_plain rfl]; rfl, h.doc.add (h.shut (hz trivial)) hE, ?_, ?_⟩
    · intro hz x hx
      rcases List.mem_append.1 hx with hx | hx
      · exact h.shut hz x hx
      · rw [List.mem_singleton] at hx; rw [hx]; exact hE
    · have := h.rows.append (Rows.none (q := q) (v := apiWs [10]) rfl .nil)
      rwa [List.append_nil] at this
  | note k s =>
    have hrun : (Edit.note k s).run c = c.note k s := rfl
    rw [hrun]
    unfold Edit.onLines
    dsimp only
    by_cases hk : hasItem ls k = true
    · rw [if_pos hk]
      refine ⟨fun ls' h' => ?_, fun err h' => by cases h'⟩
      cases h'
      obtain ⟨i, key, old, hmap, hb, hkk⟩ := h.present hk
      have hno : c.note k s = .ok (.mk (c.body.set i (.mk (some key) (old.withComment s))) c.map c.dict c.parsed c.tableKeys) := by
        unfold Cont.note
        rw [hmap]
        dsimp only
        rw [modify_set hb]; rfl
      refine ⟨_, hno, ?_⟩
      obtain ⟨a, b, e1, e2, _⟩ := set_split hb (.mk (some key) (old.withComment s))
      have hch : ∀ cl, FEnt (.mk (some key) old) cl → FEnt (.mk (some key) (old.withComment s)) cl := by
        intro cl hf
        cases hf with
        | kv hK hv hl =>
          refine .kv hK (hv.setTrivia _) ?_
          unfold Item.withComment
          rw [setTrivia_trivia hv.2.1]
          exact (noted_note (q := False) hl (fun h0 => h0.elim) he.1 he.2).1
      have hw : (Cont.mk (c.body.set i (.mk (some key) (old.withComment s))) c.map c.dict c.parsed c.tableKeys).WF := by
        refine h.doc.wf.of_shape ?_ _ _
        have hs : Entry.shape (.mk (some key) (old.withComment s)) = Entry.shape (.mk (some key) old) := by
          rcases old with _ | _ | _ | _ | _ | _ | _ | _ | _ | _ | _ | tb | ⟨ts, t, nm, p⟩ | _ <;> rfl
        rw [e2, e1, List.map_append, List.map_append, List.map_cons, List.map_cons, hs]
      obtain ⟨h1, h2⟩ := h.doc.set_at hmap hb hkk hch hw
      refine ⟨h1, fun hz => h2 (h.shut hz), ?_⟩
      rw [Cont.body_mk, e2]
      obtain ⟨cl, hf⟩ := h.doc.body.mem (List.mem_of_getElem? hb)
      have hr := h.rows
      rw [e1] at hr hnd
      cases hf with
      | kv hK hv hl =>
        have := hr.change (v := old.withComment s) hnd id (fun _ => some (noteText s)) (fun w0 cm hw0 hn => by
          refine ⟨hw0.setTrivia _, ?_⟩
          unfold Item.withComment
          rw [setTrivia_trivia hv.2.1]
          exact (noted_note hl hn.tight he.1 he.2).2)
        rw [hkk] at this
        exact this
    · rw [if_neg hk]
      refine ⟨fun ls' h' => (by cases h'), fun err h' => ?_⟩
      cases h'
      unfold Cont.note
      rw [h.absent (by simpa using hk)]

theorem Ed.after {q z : Prop} (es : List Edit) (he : ∀ e ∈ es, e.Fit) (hz : ∀ e ∈ es, e.addsLine → z) : ∀ {c : Cont} {ls : List Line}, Ed q z c ls → Ed q z (docAfter c es) (linesAfter ls es) := by
  induction es with
  | nil => intro c ls h; exact h
  | cons e r ih =>
    intro c ls h
    have hs := h.step (he e (by simp)) (hz e (by simp))
    unfold docAfter linesAfter
    rcases ho : e.onLines ls with err | ls'
    · rw [hs.2 err ho]
      exact ih (fun x hx => he x (by simp [hx])) (fun x hx => hz x (by simp [hx])) h
    · obtain ⟨c', h1, h2⟩ := hs.1 ls' ho
      rw [h1]
      exact ih (fun x hx => he x (by simp [hx])) (fun x hx => hz x (by simp [hx])) h2

end Tomlkit
