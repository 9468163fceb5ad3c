import Verif.Proofs.LitBuild
import Verif.Proofs.Wrap
import Verif.Props.Strings
import Verif.Props.Convert
/-!
# C23: what `item()` writes inside arrays and inline tables is read back
-/
namespace Tomlkit
open _root_.Spec Tomlkit.Spec

theorem throughout_mono {P Q : PyVal → Prop} (h : ∀ v, P v → Q v) : ∀ v, Throughout P v → Throughout Q v
  | .list l, hv => by
    rw [Throughout.eq_def] at hv ⊢
    exact ⟨h _ hv.1, go l hv.2⟩
  | .dict l, hv => by
    rw [Throughout.eq_def] at hv ⊢
    exact ⟨h _ hv.1, go' l hv.2⟩
  | .bool _, hv | .int _, hv | .str _, hv | .date _, hv | .time _, hv | .datetime _, hv | .float _, hv | .none, hv => by
    rw [Throughout.eq_def] at hv ⊢; exact h _ hv
where
  go : ∀ l, ThroughoutAll P l → ThroughoutAll Q l
    | [], _ => by unfold ThroughoutAll; trivial
    | v :: r, hv => by
      unfold ThroughoutAll at hv ⊢
      exact ⟨throughout_mono h v hv.1, go r hv.2⟩
  go' : ∀ l, ThroughoutIn P l → ThroughoutIn Q l
    | [], _ => by unfold ThroughoutIn; trivial
    | .mk k v :: r, hv => by
      unfold ThroughoutIn at hv ⊢
      exact ⟨throughout_mono h v hv.1, go' r hv.2⟩

theorem writable_noNone {v : PyVal} (h : Writable v) : NoNone v :=
  throughout_mono (fun v hv => by rintro rfl; exact hv) v h

/-- `value()` on a text that reads as a value -/
theorem apiValue_reads {txt : Str} {w : PyVal} (h : ReadsAs False txt w) : ∃ i, apiValue txt = .ok i ∧ Means w i := by
  obtain ⟨i, st, h1, h2, _, _, h4⟩ := h (valueFuel txt) [] [] [] [] [] (by unfold valueFuel; omega) Blank.nil (.inl rfl)
  refine ⟨i, ?_, h2⟩
  have hr : st.rest = [] := by rcases h4 with h | h <;> exact h.2
  rcases st with ⟨rest, ext, aot, loss⟩
  cases hr
  refine apiValue_of (e := ext) (a := aot) (l := loss) ?_
  rw [← h1]
  simp [St.init]

theorem holds_unique {v w : PyVal} {i : Item} (h1 : Holds v i) (h2 : Holds w i) : v = w := by
  obtain ⟨n, hn⟩ := holds_unwrap v h1
  obtain ⟨m, hm⟩ := holds_unwrap w h2
  have e1 := hn (max n m) (by omega)
  have e2 := hm (max n m) (by omega)
  rw [e1] at e2
  cases e2; rfl

/-- C23: every value built from bool, int, float, str, dates and times, lists and dicts, as an element of an array
(`array().append(v)`) and as a value of an inline table, is converted, and its text is read back by `value()` as an
item that unwraps to an equal value. -/
theorem C23_inline_values_survive (v : PyVal) (hk : KeysOnce v) (hw : Writable v) (sort : Bool) :
    (∃ i i' w, v.toElem sort = .ok i ∧ apiValue i.asString = .ok i' ∧ (∃ n0, ∀ n ≥ n0, i'.unwrap n = .ok w) ∧ Same v w) ∧
    (∃ i i' w, v.toItem sort .inline = .ok i ∧ apiValue i.asString = .ok i' ∧ (∃ n0, ∀ n ≥ n0, i'.unwrap n = .ok w) ∧ Same v w) := by
  constructor
  · obtain ⟨i, w, h1, h2, h3⟩ := elem_holds v hk (writable_noNone hw) sort
    obtain ⟨w', hf⟩ := elem_lit v hk hw sort i h1
    rw [← holds_unique h2 hf.is.holds] at hf
    obtain ⟨i', e1, e2⟩ := apiValue_reads hf.is.reads
    exact ⟨i, i', w, h1, e1, means_unwrap e2, h3⟩
  · obtain ⟨i, w, h1, h2, h3⟩ := item_holds v hk (writable_noNone hw) sort .inline
    obtain ⟨w', hf⟩ := item_lit v hk hw sort .inline i h1 (inline_noTable h1)
    rw [← holds_unique h2 hf.is.holds] at hf
    obtain ⟨i', e1, e2⟩ := apiValue_reads hf.is.reads
    exact ⟨i, i', w, h1, e1, means_unwrap e2, h3⟩

/-- C23, for `item(v)` itself: whenever the result is no table or array of tables, its text is read back as an equal value. -/
theorem C23_item_survives (v : PyVal) (hk : KeysOnce v) (hw : Writable v) (sort : Bool) (p : Parent) (i : Item)
    (hi : v.toItem sort p = .ok i) (ht : i.isTableLike = false) :
    ∃ i' w, apiValue i.asString = .ok i' ∧ (∃ n0, ∀ n ≥ n0, i'.unwrap n = .ok w) ∧ Same v w := by
  obtain ⟨i0, w, h1, h2, h3⟩ := item_holds v hk (writable_noNone hw) sort p
  rw [hi] at h1; cases h1
  obtain ⟨w', hf⟩ := item_lit v hk hw sort p i hi ht
  rw [← holds_unique h2 hf.is.holds] at hf
  obtain ⟨i', e1, e2⟩ := apiValue_reads hf.is.reads
  exact ⟨i', w, e1, means_unwrap e2, h3⟩

/-- the text of a converted element -/
def elemText (v : PyVal) : Option Str := (v.toElem false).toOption.map Item.asString

/-- a nested value: `[1.5, {"a b": [true, {}], "d": 1979-05-27}, "x\"y"]` -/
def sampleNested : PyVal := .list [.float (t!"1.5"), .dict [.mk (t!"a b") (.list [.bool true, .dict []]), .mk (t!"d") (.date ⟨1979, 5, 27⟩)],
  .str (t!"x\"y")]

theorem sampleNested_ok : KeysOnce sampleNested ∧ Writable sampleNested := by
  constructor
  · simp only [sampleNested, KeysOnce, KeysOnceIn, KeysOncePair, KeysOnceAll, List.map, PyPair.key_mk]
    refine ⟨trivial, ⟨by decide, ⟨trivial, ⟨by decide, trivial⟩, trivial⟩, trivial, trivial⟩, trivial, trivial⟩
  · have hf : FloatRepr (t!"1.5") :=
      ⟨[], _, rfl, .inl rfl, .inl (.point [49] [53] [] ⟨by simp, by simp [Dec]⟩ (.inr (by simp)) ⟨by simp, by simp [Dec]⟩ (.inl rfl))⟩
    have hd : ValidDate 1979 5 27 := by unfold ValidDate; simp
    simp only [sampleNested, Writable, Throughout, ThroughoutAll, ThroughoutIn, ThroughoutPair, Proper]
    exact ⟨trivial, hf, ⟨trivial, ⟨trivial, trivial, ⟨trivial, trivial⟩, trivial⟩, hd, trivial⟩, trivial, trivial⟩

set_option maxRecDepth 10000 in
/-- its text, and the theorem applied to it -/
example : elemText sampleNested = some (t!"[1.5, {\"a b\" = [true, {}], d = 1979-05-27}, \"x\\\"y\"]") := by decide +kernel

example := C23_inline_values_survive sampleNested sampleNested_ok.1 sampleNested_ok.2 false

end Tomlkit
