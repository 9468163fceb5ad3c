import Verif.Spec.Toml
import Verif.Spec.ArrayOps
/-!
# Specification: arrays without comments between the elements and without blanks before commas
-/
namespace Tomlkit.Spec
open Tomlkit _root_.Spec

/-- the text does not start with a blank -/
def NoBlankFirst (s : List Nat) : Prop := ∀ c, s.head? = some c → c ≠ 32 ∧ c ≠ 9

mutual
/-- A value that stands inside an array: a scalar, or an array (with any layout and comments, but no blank directly behind an element: the
code forgets the blank behind a date). -/
inductive InnerValue : List Nat → PyVal → Prop
  /-- `true` -/
  | true : InnerValue [116, 114, 117, 101] (.bool Bool.true)
  /-- `false` -/
  | false : InnerValue [102, 97, 108, 115, 101] (.bool Bool.false)
  | int (s i) (h : IntegerLiteral s i) : InnerValue s (.int i)
  | float (s t) (h : FloatLiteral s t) : InnerValue s (.float t)
  | str (s v) (h : StringText s v) : InnerValue s (.str v)
  | date (s d) (h : TomlDate s d) : InnerValue s (.date d)
  | time (s t) (h : TomlTime s t) : InnerValue s (.time t)
  | datetime (s v) (h : TomlDateTime s v) : InnerValue s (.datetime v)
  | array (s l) (h : InnerElements Bool.false s l) : InnerValue (91 :: s) (.list l)
/-- What stands after the opening bracket of an inner array or after a part of it; the flag tells that an element came last and no comma
since. -/
inductive InnerElements : Bool → List Nat → List PyVal → Prop
  | close (p) : InnerElements p [93] []
  | blank (p c s l) (hc : c = 32 ∨ c = 9) (h : InnerElements p s l) : InnerElements p (c :: s) l
  | newline (p nl s l) (hn : Newline nl) (h : InnerElements p s l) : InnerElements p (nl ++ s) l
  | comment (p cm nl s l) (hc : ∀ c ∈ cm, NotControl c) (hn : Newline nl) (h : InnerElements p s l) :
      InnerElements p (35 :: (cm ++ (nl ++ s))) l
  | comma (s l) (h : InnerElements Bool.false s l) : InnerElements Bool.true (44 :: s) l
  | elem (e v s l) (he : InnerValue e v) (hb : NoBlankFirst s) (h : InnerElements Bool.true s l) : InnerElements Bool.false (e ++ s) (v :: l)
end

/-- What stands after the opening bracket of an array: elements with blanks and line breaks in front of them, each with its comma right
behind it; after the last one there may be a comma or none, and blanks and line breaks. The flag tells that the closing bracket follows
a comma, an element or the opening bracket directly. -/
inductive PlainElements : Bool → List Nat → List PyVal → Prop
  | close : PlainElements Bool.true [93] []
  | blankClose (b) (h : BlanksAndNewlines b) (hne : b ≠ []) : PlainElements Bool.false (b ++ [93]) []
  | last (b e v) (h : BlanksAndNewlines b) (he : InnerValue e v) : PlainElements Bool.true (b ++ (e ++ [93])) [v]
  | lastBlank (b e v b') (h : BlanksAndNewlines b) (he : InnerValue e v) (h' : BlanksAndNewlines b') (hne : b' ≠ []) :
      PlainElements Bool.false (b ++ (e ++ (b' ++ [93]))) [v]
  | more (z b e v s l) (h : BlanksAndNewlines b) (he : InnerValue e v) (hr : PlainElements z s l) :
      PlainElements z (b ++ (e ++ 44 :: s)) (v :: l)

end Tomlkit.Spec
