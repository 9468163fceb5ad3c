import Verif.Proofs.AppendErr
/-!
# Containers up to the values of their lines

`append` looks at what kind of thing an item is, never at the value of a line. The skeleton of a container forgets these values;
appending commutes with it.
-/
namespace Tomlkit

mutual
/-- forget the values of the lines -/
def Item.skel : Item → Item
  | .ws s f => .ws s f
  | .comment t => .comment t
  | .null t => .null t
  | .table tb => .table tb.skel
  | .aot ts t n p => .aot ts.skelTables t n p
  | .integer .. | .float .. | .bool .. | .datetime .. | .date .. | .time .. | .str .. | .array .. | .inline .. => .integer 0 {} []
termination_by structural i => i
@[inherit_doc Item.skel]
def Tbl.skel : Tbl → Tbl
  | .mk c t a s n d => .mk c.skel t a s n d
termination_by structural t => t
@[inherit_doc Item.skel]
def Cont.skel : Cont → Cont
  | .mk b m d p tk => .mk b.skelEntries m d p tk
termination_by structural c => c
@[inherit_doc Item.skel]
def _root_.List.skelEntries : List Entry → List Entry
  | [] => []
  | e :: r => e.skel :: r.skelEntries
termination_by structural e => e
@[inherit_doc Item.skel]
def Entry.skel : Entry → Entry
  | .mk k v => .mk k v.skel
termination_by structural e => e
@[inherit_doc Item.skel]
def _root_.List.skelTables : List Tbl → List Tbl
  | [] => []
  | t :: r => t.skel :: r.skelTables
termination_by structural t => t
end

theorem skelEntries_eq (b : List Entry) : b.skelEntries = b.map Entry.skel := by
  induction b with
  | nil => rfl
  | cons e r ih => rw [List.skelEntries, ih]; rfl

theorem skelTables_eq (b : List Tbl) : b.skelTables = b.map Tbl.skel := by
  induction b with
  | nil => rfl
  | cons e r ih => rw [List.skelTables, ih]; rfl

@[simp] theorem Cont.skel_body (c : Cont) : c.skel.body = c.body.map Entry.skel := by
  rcases c with ⟨b, m, d, p, tk⟩; exact skelEntries_eq b
@[simp] theorem Cont.skel_map (c : Cont) : c.skel.map = c.map := by rcases c with ⟨b, m, d, p, tk⟩; rfl
@[simp] theorem Cont.skel_dict (c : Cont) : c.skel.dict = c.dict := by rcases c with ⟨b, m, d, p, tk⟩; rfl
@[simp] theorem Cont.skel_parsed (c : Cont) : c.skel.parsed = c.parsed := by rcases c with ⟨b, m, d, p, tk⟩; rfl
@[simp] theorem Cont.skel_tableKeys (c : Cont) : c.skel.tableKeys = c.tableKeys := by rcases c with ⟨b, m, d, p, tk⟩; rfl
theorem Cont.skel_mk (b m d p tk) : (Cont.mk b m d p tk).skel = .mk (b.map Entry.skel) m d p tk := by
  rw [Cont.skel, skelEntries_eq]
@[simp] theorem Entry.skel_key (e : Entry) : e.skel.key = e.key := by rcases e with ⟨k, v⟩; rfl
@[simp] theorem Entry.skel_v (e : Entry) : e.skel.v = e.v.skel := by rcases e with ⟨k, v⟩; rfl
@[simp] theorem Tbl.skel_cont (t : Tbl) : t.skel.cont = t.cont.skel := by rcases t with ⟨c, t, a, s, n, d⟩; rfl
@[simp] theorem Tbl.skel_trivia (t : Tbl) : t.skel.trivia = t.trivia := by rcases t with ⟨c, t, a, s, n, d⟩; rfl
@[simp] theorem Tbl.skel_isAot (t : Tbl) : t.skel.isAot = t.isAot := by rcases t with ⟨c, t, a, s, n, d⟩; rfl
@[simp] theorem Tbl.skel_name (t : Tbl) : t.skel.name = t.name := by rcases t with ⟨c, t, a, s, n, d⟩; rfl
@[simp] theorem Tbl.skel_superFlag (t : Tbl) : t.skel.superFlag = t.superFlag := by rcases t with ⟨c, t, a, s, n, d⟩; rfl
@[simp] theorem Tbl.skel_setCont (t : Tbl) (c : Cont) : (t.setCont c).skel = t.skel.setCont c.skel := by rcases t with ⟨c, t, a, s, n, d⟩; rfl
@[simp] theorem Tbl.skel_setTrivia (t : Tbl) (tr : Trivia) : (t.setTrivia tr).skel = t.skel.setTrivia tr := by rcases t with ⟨c, t, a, s, n, d⟩; rfl
@[simp] theorem Tbl.skel_truthy (t : Tbl) : t.skel.truthy = t.truthy := by unfold Tbl.truthy; simp
@[simp] theorem Item.skel_isTable (v : Item) : v.skel.isTable = v.isTable := by cases v <;> rfl
@[simp] theorem Item.skel_isAoT (v : Item) : v.skel.isAoT = v.isAoT := by cases v <;> rfl
@[simp] theorem Item.skel_isTableLike (v : Item) : v.skel.isTableLike = v.isTableLike := by cases v <;> rfl
@[simp] theorem Item.skel_isWhitespace (v : Item) : v.skel.isWhitespace = v.isWhitespace := by cases v <;> rfl
@[simp] theorem Item.skel_isNull (v : Item) : v.skel.isNull = v.isNull := by cases v <;> rfl
theorem Item.skel_name? (v : Item) : v.skel.name? = v.name? := by
  rcases v with _ | _ | _ | _ | _ | _ | _ | _ | _ | _ | _ | ⟨c, t, a, s, n, d⟩ | ⟨ts, t, nm, p⟩ | _ <;> rfl
theorem Item.skel_setName (v : Item) (s : Str) : (v.setName s).skel = v.skel.setName s := by
  rcases v with _ | _ | _ | _ | _ | _ | _ | _ | _ | _ | _ | ⟨c, t, a, s, n, d⟩ | ⟨ts, t, nm, p⟩ | _ <;> rfl

@[simp] theorem Tbl.skel_isSuper (t : Tbl) : t.skel.isSuper = t.isSuper := by
  rcases t with ⟨⟨b, m, d, p, tk⟩, tr, a, s, n, dn⟩
  unfold Tbl.isSuper
  simp only [Tbl.skel_superFlag, Tbl.superFlag_mk, Tbl.skel_cont, Tbl.cont_mk, Cont.skel_dict, Cont.skel_map, Cont.skel_body, Cont.dict_mk, Cont.map_mk, Cont.body_mk]
  rcases s with _ | s
  · simp only
    rcases d with _ | ⟨k, _ | _⟩
    · rfl
    · simp only
      rcases mapGet k m with _ | is
      · rfl
      rcases is with _ | ⟨i, _ | _⟩
      · rfl
      · simp only [List.getElem?_map, Option.map_map]
        rcases b[i]? with _ | e
        · rfl
        · simp
      · rfl
    · rfl
  · rfl

mutual
theorem Item.size_skel : (v : Item) → v.skel.size = v.size
  | .table tb => by rw [Item.skel, Item.size, Item.size, Tbl.size_skel tb]
  | .aot ts t n p => by rw [Item.skel, Item.size, Item.size, tablesSize_skel ts]
  | .ws .. | .comment .. | .null .. | .integer .. | .float .. | .bool .. | .datetime .. | .date .. | .time .. | .str .. | .array .. | .inline .. => rfl
theorem Tbl.size_skel : (t : Tbl) → t.skel.size = t.size
  | .mk c t a s n d => by rw [Tbl.skel, Tbl.size, Tbl.size, Cont.size_skel c]
theorem Cont.size_skel : (c : Cont) → c.skel.size = c.size
  | .mk b m d p tk => by rw [Cont.skel, Cont.size, Cont.size, entriesSize_skel b]
theorem entriesSize_skel : (b : List Entry) → b.skelEntries.entriesSize = b.entriesSize
  | [] => rfl
  | e :: r => by rw [List.skelEntries, List.entriesSize, List.entriesSize, Entry.size_skel e, entriesSize_skel r]
theorem Entry.size_skel : (e : Entry) → e.skel.size = e.size
  | .mk k v => by rw [Entry.skel, Entry.size, Entry.size, Item.size_skel v]
theorem tablesSize_skel : (b : List Tbl) → b.skelTables.tablesSize = b.tablesSize
  | [] => rfl
  | e :: r => by rw [List.skelTables, List.tablesSize, List.tablesSize, Tbl.size_skel e, tablesSize_skel r]
end

theorem fuelFor_skel (c : Cont) (v : Item) : fuelFor c.skel v.skel = fuelFor c v := by
  unfold fuelFor; rw [Cont.size_skel, Item.size_skel]

theorem dictOfBody_skel (b : List Entry) : dictOfBody (b.map Entry.skel) = dictOfBody b := by
  unfold dictOfBody
  rw [List.foldl_map]
  congr 1
  funext d e
  rw [Entry.skel_key]

theorem nlIndent_skel (t : Tbl) : (nlIndent t).skel = nlIndent t.skel := by
  unfold nlIndent
  rw [Tbl.skel_trivia]
  split
  · rfl
  · rw [Tbl.skel_setTrivia]

theorem insertIdx_map' {α β : Type} (f : α → β) (l : List α) (i : Nat) (a : α) : (l.insertIdx i a).map f = (l.map f).insertIdx i (f a) := by
  induction l generalizing i with
  | nil => rcases i with _ | i <;> simp
  | cons x l ih =>
    rcases i with _ | i
    · simp
    · simp only [List.insertIdx_succ_cons, List.map_cons, ih]

theorem map_modify' {α β : Type} (f : α → β) (g : α → α) (g' : β → β) (h : ∀ a, f (g a) = g' (f a)) (l : List α) (i : Nat) :
    (l.modify i g).map f = (l.map f).modify i g' := by
  induction l generalizing i with
  | nil => rcases i with _ | i <;> simp
  | cons x l ih =>
    rcases i with _ | i
    · simp [h]
    · simp only [List.modify_succ_cons, List.map_cons, ih]

/-- the insertion itself, items.py:1908-1919 -/
def aotPut (p : Bool) (ts : List Tbl) (i : Nat) (v : Tbl) : List Tbl :=
  if p then ts.insertIdx i v
  else
    let v := match (if 0 < i && 0 < ts.length then ts[i - 1]? else none) with
      | some p => if p.truthy then nlIndent v else v
      | none => v
    let ts := if i + 1 < ts.length && ((ts[i + 1]?).map Tbl.truthy).getD false
      then ts.modify (i + 1) nlIndent else ts
    ts.insertIdx i v

theorem aotPut_skel (p : Bool) (ts : List Tbl) (i : Nat) (w : Tbl) :
    (aotPut p ts i w).map Tbl.skel = aotPut p (ts.map Tbl.skel) i w.skel := by
  unfold aotPut
  simp only [List.length_map]
  split
  · rw [insertIdx_map']
  · rw [insertIdx_map']
    congr 1
    · have : ((ts.map Tbl.skel)[i + 1]?.map Tbl.truthy).getD false = ((ts[i + 1]?).map Tbl.truthy).getD false := by
        rw [List.getElem?_map, Option.map_map]
        congr 2
        funext t
        exact Tbl.skel_truthy t
      rw [this]
      split
      · exact map_modify' _ _ _ nlIndent_skel _ _
      · rfl
    · have : (if (0 < i && 0 < ts.length) = true then (ts.map Tbl.skel)[i - 1]? else none) =
          (if (0 < i && 0 < ts.length) = true then ts[i - 1]? else none).map Tbl.skel := by
        split
        · rw [List.getElem?_map]
        · rfl
      rw [this]
      rcases (if (0 < i && 0 < ts.length) = true then ts[i - 1]? else none) with _ | q
      · rfl
      · simp only [Option.map_some, Tbl.skel_truthy]
        split
        · exact nlIndent_skel _
        · rfl

theorem aotInsert_skel (own : Trivia) (p : Bool) (ts : List Tbl) (i : Int) (v : Tbl) :
    (aotInsert own p ts i v).map Tbl.skel = aotInsert own p (ts.map Tbl.skel) i v.skel := by
  have h1 : ∀ ts v, aotInsert own p ts i v = aotPut p ts (clampIndex i ts.length) (match spaceRun own.indent with
    | some ind => v.setTrivia { v.trivia with indent := insertIndent ind v.trivia.indent }
    | none => v) := fun _ _ => rfl
  rw [h1, h1, aotPut_skel, List.length_map]
  congr 1
  rcases spaceRun own.indent with _ | ind
  · rfl
  · simp only [Tbl.skel_setTrivia, Tbl.skel_trivia]

theorem aotAppend_skel (own : Trivia) (p : Bool) (ts : List Tbl) (v : Tbl) :
    (aotAppend own p ts v).map Tbl.skel = aotAppend own p (ts.map Tbl.skel) v.skel := by
  unfold aotAppend
  rw [aotInsert_skel, List.length_map]

theorem aotFold_skel (own : Trivia) (p : Bool) (l ts : List Tbl) :
    (l.foldl (aotAppend own p) ts).map Tbl.skel = (l.map Tbl.skel).foldl (aotAppend own p) (ts.map Tbl.skel) := by
  induction l generalizing ts with
  | nil => rfl
  | cons t l ih => rw [List.foldl_cons, ih, List.map_cons, List.foldl_cons, aotAppend_skel]

theorem mkAoT_skel (l : List Tbl) (n : Option Str) (p : Bool) : (mkAoT l n p).skel = mkAoT (l.map Tbl.skel) n p := by
  unfold mkAoT
  rw [Item.skel, skelTables_eq, aotFold_skel]
  rfl

mutual
theorem Item.skel_deepCopy : (v : Item) → v.deepCopy.skel = v.skel.deepCopy
  | .table tb => by rw [Item.deepCopy, Item.skel, Item.skel, Item.deepCopy, Tbl.skel_deepCopy tb]
  | .aot ts t n p => by
    have := tables_skel_deepCopy ts
    rw [skelTables_eq, skelTables_eq] at this
    rw [Item.deepCopy, Item.skel, Item.deepCopy, mkAoT_skel, skelTables_eq, this]
  | .ws .. | .comment .. | .null .. | .integer .. | .float .. | .bool .. | .datetime .. | .date .. | .time .. | .str .. | .array .. | .inline .. => by
    simp only [Item.deepCopy, Item.skel, Item.nullItem]
theorem Tbl.skel_deepCopy : (t : Tbl) → t.deepCopy.skel = t.skel.deepCopy
  | .mk c t a s n d => by rw [Tbl.deepCopy, Tbl.skel, Tbl.skel, Tbl.deepCopy, Cont.skel_deepCopy c]
theorem Cont.skel_deepCopy : (c : Cont) → c.deepCopy.skel = c.skel.deepCopy
  | .mk b m d p tk => by
    rw [Cont.deepCopy, Cont.skel, Cont.skel, Cont.deepCopy, entries_skel_deepCopy b, skelEntries_eq b, dictOfBody_skel]
theorem entries_skel_deepCopy : (b : List Entry) → b.deepCopyEntries.skelEntries = b.skelEntries.deepCopyEntries
  | [] => rfl
  | e :: r => by rw [List.deepCopyEntries, List.skelEntries, List.skelEntries, List.deepCopyEntries, Entry.skel_deepCopy e, entries_skel_deepCopy r]
theorem Entry.skel_deepCopy : (e : Entry) → e.deepCopy.skel = e.skel.deepCopy
  | .mk k v => by rw [Entry.deepCopy, Entry.skel, Entry.skel, Entry.deepCopy, Item.skel_deepCopy v]
theorem tables_skel_deepCopy : (b : List Tbl) → b.deepCopyTables.skelTables = b.skelTables.deepCopyTables
  | [] => rfl
  | e :: r => by rw [List.deepCopyTables, List.skelTables, List.skelTables, List.deepCopyTables, Tbl.skel_deepCopy e, tables_skel_deepCopy r]
end

/-! ### the steps of append -/

theorem skel_rawAppend (c : Cont) (key : Option SKey) (v : Item) : c.skel.rawAppend key v.skel = (c.rawAppend key v).map Cont.skel := by
  unfold Cont.rawAppend
  rcases key with _ | k
  · simp [Except.map, Cont.skel_mk, Entry.skel]
  · simp only [Cont.skel_map, Cont.skel_body, Cont.skel_dict, Cont.skel_parsed, Cont.skel_tableKeys, Item.skel_isTable, List.length_map, List.getElem?_map]
    rcases mapGet k.key c.map with _ | is
    · simp [Except.map, Cont.skel_mk, Entry.skel]
    · simp only
      rcases is.getLast? with _ | i
      · rfl
      · show (match (c.body[i]?).map Entry.skel with | some e => _ | none => _) = Except.map _ (match c.body[i]? with | some e => _ | none => _)
        rcases c.body[i]? with _ | e
        · rfl
        · simp only [Option.map_some, Entry.skel_v, Item.skel_isTable]
          split
          · simp [Except.map, Cont.skel_mk, Entry.skel]
          · rfl

theorem skel_appendTail {c : Cont} (hp : c.parsed = true) (key : Option SKey) (v : Item) :
    c.skel.appendTail key v.skel = (c.appendTail key v).map Cont.skel := by
  unfold Cont.appendTail
  rcases key with _ | k
  · exact skel_rawAppend _ _ _
  · simp only [Cont.skel_parsed, hp, Bool.not_true, Bool.and_false, Bool.false_and, Bool.false_eq_true, if_false]
    exact skel_rawAppend _ _ _

theorem skel_lastEntry (c : Cont) (k : Str) : c.skel.lastEntry k = (c.lastEntry k).map fun p => (p.1, p.2.skel) := by
  unfold Cont.lastEntry
  rw [Cont.skel_map, Cont.skel_body]
  rcases mapGet k c.map with _ | is
  · rfl
  simp only
  rcases is.getLast? with _ | i
  · rfl
  simp only [List.getElem?_map, Option.map_map]
  rcases c.body[i]? with _ | e <;> rfl

theorem skel_prepare {c : Cont} (hp : c.parsed = true) (key : Option SKey) (v : Item) :
    c.skel.prepare key v.skel = (c.prepare key v).map Item.skel := by
  unfold Cont.prepare
  rw [Item.skel_isTableLike, Item.skel_name?, Cont.skel_parsed, hp]
  have h : (if (v.isTableLike && v.name?.isNone) = true then key.map fun k => v.skel.setName k.key else some v.skel) =
      (if (v.isTableLike && v.name?.isNone) = true then key.map fun k => v.setName k.key else some v).map Item.skel := by
    split
    · rcases key with _ | k
      · rfl
      · simp [Item.skel_setName]
    · rfl
  rw [h]
  generalize (if (v.isTableLike && v.name?.isNone) = true then key.map fun k => v.setName k.key else some v) = o
  rcases o with _ | w
  · rfl
  rcases w with _ | _ | _ | _ | _ | _ | _ | _ | _ | _ | _ | tb | ⟨ts, t, nm, p⟩ | _ <;> simp [Item.skel, Except.map]

theorem skel_tablesAt (b : List Entry) (is : List Nat) : tablesAt (b.map Entry.skel) is = (tablesAt b is).map Tbl.skel := by
  unfold tablesAt
  induction is with
  | nil => rfl
  | cons i is ih =>
    rw [List.filterMap_cons, List.filterMap_cons, ih, List.getElem?_map]
    rcases b[i]? with _ | ⟨k, v⟩
    · rfl
    · cases v <;> rfl

end Tomlkit
