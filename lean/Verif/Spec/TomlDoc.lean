import Verif.Spec.Toml
/-!
# Specification: the documents of TOML 1.0

The grammar of documents whose tables come one after the other, each followed by its sub-tables, with the dictionary the text denotes.
`[` is 91, `]` is 93.

Not every document of TOML is one of these: a table that is left is not entered again (`[a]`, `[b]`, `[a.c]`; `a.b = 1`,
`[a.c]`), and one form is left out in which the code goes wrong (see `array`).
-/
namespace Tomlkit.Spec
open Tomlkit _root_.Spec

/-- the end of a line; the last one may end with the text -/
def LineEnd (nl rest : List Nat) : Prop := Newline nl ∨ nl = [] ∧ rest = []

/-- a comment or nothing -/
def CommentText (cm : List Nat) : Prop := cm = [] ∨ ∃ s, cm = 35 :: s ∧ ∀ c ∈ s, NotControl c

/-- Lines: blank lines, comments, key/value pairs. They end with the text or where a header starts, which may be
indented. -/
inductive LinesText : List Nat → List Nat → List (List Str × PyVal) → Prop
  | stop (tail) (h : tail = [] ∨ tail.head? = some 91) : LinesText tail tail []
  | indent (b tail) (hb : Blanks b) (h : tail.head? = some 91) : LinesText (b ++ tail) tail []
  | blank (b nl t tail L) (hb : Blanks b) (hn : LineEnd nl t) (hne : b ++ nl ≠ []) (h : LinesText t tail L) : LinesText (b ++ (nl ++ t)) tail L
  | comment (b cm nl t tail L) (hb : Blanks b) (hc : ∀ c ∈ cm, NotControl c) (hn : LineEnd nl t) (h : LinesText t tail L) :
      LinesText (b ++ 35 :: (cm ++ (nl ++ t))) tail L
  | pair (key path b1 e v b2 cm nl t tail L) (hk : DottedText key path) (h1 : Blanks b1) (he : ValueText e v)
      (h2 : Blanks b2) (hc : CommentText cm) (hn : LineEnd nl t) (h : LinesText t tail L) :
      LinesText (key ++ 61 :: (b1 ++ (e ++ (b2 ++ (cm ++ (nl ++ t)))))) tail ((path, v) :: L)

/-- the header line of a table -/
inductive HeaderText : List Str → List Nat → List Nat → Prop
  | mk (key path b cm nl t) (hk : DottedText key path) (hb : Blanks b) (hc : CommentText cm) (hn : LineEnd nl t) :
      HeaderText path (91 :: (key ++ 93 :: (b ++ (cm ++ (nl ++ t))))) t

/-- the header line of an element of an array of tables -/
inductive ArrayHeaderText : List Str → List Nat → List Nat → Prop
  | mk (key path b cm nl t) (hk : DottedText key path) (hb : Blanks b) (hc : CommentText cm) (hn : LineEnd nl t) :
      ArrayHeaderText path (91 :: 91 :: (key ++ 93 :: 93 :: (b ++ (cm ++ (nl ++ t))))) t

mutual
/-- What stands below the header of the table with this path, up to the next header that is not one of its sub-tables: its lines, then its
sub-tables. The dotted keys of the lines do not lead into the sub-tables. -/
inductive TableText : Option Str → List Str → List Nat → List Nat → List PyPair → Prop
  | mk (av path text t1 tail L l1 l2) (h1 : LinesText text t1 L) (hn : Nest L l1) (h2 : SubTables av path [] t1 tail l2)
      (hd : ∀ k ∈ l2.map PyPair.key, k ∉ l1.map PyPair.key) : TableText av path text tail (l1 ++ l2)
/-- The sub-tables of the table with path `p ++ q`. The header of `p` has been read, there is none for the tables `q` below it.

`av` is `a` inside the elements of an array of tables `[[a]]` of the document, except in the first element. -/
inductive SubTables : Option Str → List Str → List Str → List Nat → List Nat → List PyPair → Prop
  | none (av p q tail) : SubTables av p q tail tail []
  /-- a table, then others -/
  | table (av p q k text t0 t1 tail d l) (hh : HeaderText (p ++ q ++ [k]) text t0) (h1 : TableText av (p ++ q ++ [k]) t0 t1 d)
      (h2 : SubTables av p q t1 tail l) (hk : k ∉ l.map PyPair.key) : SubTables av p q text tail (.mk k (.dict d) :: l)
  /-- a table without header that has sub-tables, then others -/
  | implicit (av p q k text t1 tail d l) (h1 : SubTables av p (q ++ [k]) text t1 d) (hne : d ≠ []) (h2 : SubTables av p q t1 tail l)
      (hk : k ∉ l.map PyPair.key) : SubTables av p q text tail (.mk k (.dict d) :: l)
  /-- an array of tables, then others. It is not `[[a.…]]` relative to an element of `[[a]]` (`[[a]]`, `[[a]]`, `[[a.a.b]]`): there the
  code takes the implicit table `a` for the array. -/
  | array (av p q k text t0 t1 t2 tail d l ls) (hh : ArrayHeaderText (p ++ q ++ [k]) text t0) (hq : ∀ y, q.head? = some y → av ≠ some y)
      (h1 : TableText av (p ++ q ++ [k]) t0 t1 d)
      (h2 : MoreElements (if p ++ q = [] then some k else av) (p ++ q ++ [k]) t1 t2 ls) (h3 : SubTables av p q t2 tail l)
      (hk : k ∉ l.map PyPair.key) : SubTables av p q text tail (.mk k (.list (.dict d :: ls)) :: l)
/-- further elements of an array of tables -/
inductive MoreElements : Option Str → List Str → List Nat → List Nat → List PyVal → Prop
  | nil (av path tail) : MoreElements av path tail tail []
  | cons (av path text t0 t1 tail d ls) (hh : ArrayHeaderText path text t0) (h1 : TableText av path t0 t1 d)
      (h2 : MoreElements av path t1 tail ls) : MoreElements av path text tail (.dict d :: ls)
end

/-- The document denotes the dictionary: its lines, then its tables. -/
def DocumentText (text : List Nat) (l : List PyPair) : Prop := TableText Option.none [] text [] l

end Tomlkit.Spec
