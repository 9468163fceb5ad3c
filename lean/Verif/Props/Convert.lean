import Verif.Proofs.Wrap
/-!
# Conversion of Python values: C22, C25
-/
namespace Tomlkit
open Spec

/-- C22: `item(v).unwrap() == v` for every value built from bool, int, str, dates and times, (opaque) floats, lists and
str-keyed dicts, with and without `_sort_keys`, whatever the parent. -/
theorem C22_item_unwrap (v : PyVal) (hk : KeysOnce v) (hn : NoNone v) (sort : Bool) (parent : Parent) :
    ∃ i w, v.toItem sort parent = .ok i ∧ (∃ n0, ∀ n ≥ n0, i.unwrap n = .ok w) ∧ Same v w := by
  obtain ⟨i, w, h1, h2, h3⟩ := item_holds v hk hn sort parent
  exact ⟨i, w, h1, holds_unwrap w h2, h3⟩

/-- C22, what reading the item key by key and element by element shows: the item holds a value equal to `v`. -/
theorem C22_item_reads (v : PyVal) (hk : KeysOnce v) (hn : NoNone v) (sort : Bool) (parent : Parent) :
    ∃ i w, v.toItem sort parent = .ok i ∧ Holds w i ∧ Same v w :=
  item_holds v hk hn sort parent

/-- `{"b": 1, "t": {"x": [1, {"y": "z"}]}, "l": [{"q": 2, "p": {}}]}` -/
def sampleDict : PyVal := .dict
  [.mk (t!"b") (.int 1), .mk (t!"t") (.dict [.mk (t!"x") (.list [.int 1, .dict [.mk (t!"y") (.str (t!"z"))]])]),
   .mk (t!"l") (.list [.dict [.mk (t!"p") (.dict []), .mk (t!"q") (.int 2)]])]

theorem sampleDict_ok : KeysOnce sampleDict ∧ NoNone sampleDict ∧ NoDictInListInList sampleDict := by
  refine ⟨?_, ?_, ?_⟩
  · simp only [sampleDict, KeysOnce, KeysOnceIn, KeysOncePair, KeysOnceAll, List.map, PyPair.key_mk]
    refine ⟨by decide, ?_⟩
    refine ⟨trivial, ⟨by decide, ⟨⟨trivial, ⟨by decide, trivial, trivial⟩, trivial⟩, trivial⟩⟩, ⟨⟨by decide, ⟨by decide, trivial⟩, trivial, trivial⟩, trivial⟩, trivial⟩
  · simp [sampleDict, NoNone, Throughout, ThroughoutIn, ThroughoutPair, ThroughoutAll]
  · simp [sampleDict, NoDictInListInList, Throughout, ThroughoutIn, ThroughoutPair, ThroughoutAll]

example : ∃ i w, sampleDict.toItem false .none = .ok i ∧ (∃ n0, ∀ n ≥ n0, i.unwrap n = .ok w) ∧ Same sampleDict w :=
  C22_item_unwrap _ sampleDict_ok.1 sampleDict_ok.2.1 _ _

/-- C25, except for dicts inside a list that is an element of a list: `dumps(d, sort_keys=True)` is the same text for
equal mappings, whatever the order of their keys. -/
theorem C25_sort_keys_partial (d d' : List PyPair) (h : Same (.dict d) (.dict d')) (hk : KeysOnce (.dict d))
    (hk' : KeysOnce (.dict d')) (hl : NoDictInListInList (.dict d)) (text : Str) (ht : dumpsDict true d = .ok text) :
    dumpsDict true d' = .ok text := by
  unfold dumpsDict at ht ⊢
  rcases hi : PyVal.toItem true .none (.dict d) with e | i <;> rw [hi] at ht
  · cases ht
  rw [same_item (.dict d) h hk hk' hl .none i hi]
  exact ht

/-- the hypotheses are met, and the text is not empty -/
example : dumpsDict true [.mk (t!"b") (.int 1), .mk (t!"a") (.dict [.mk (t!"d") (.int 2), .mk (t!"c") (.list [])])] =
    .ok (t!"b = 1\n\n[a]\nc = []\nd = 2\n") ∧
  dumpsDict true [.mk (t!"a") (.dict [.mk (t!"c") (.list []), .mk (t!"d") (.int 2)]), .mk (t!"b") (.int 1)] =
    .ok (t!"b = 1\n\n[a]\nc = []\nd = 2\n") := ⟨by rfl, by rfl⟩

/-- C25 is false in general: `dumps({"x": [[{"b": 1, "a": 2}]]}, sort_keys=True)` keeps the order of the inner keys. -/
theorem C25_counterexample_nested_list :
    dumpsDict true [.mk (t!"x") (.list [.list [.dict [.mk (t!"b") (.int 1), .mk (t!"a") (.int 2)]]])] =
      .ok (t!"x = [[{b = 1, a = 2}]]\n") ∧
    dumpsDict true [.mk (t!"x") (.list [.list [.dict [.mk (t!"a") (.int 2), .mk (t!"b") (.int 1)]]])] =
      .ok (t!"x = [[{a = 2, b = 1}]]\n") := ⟨by rfl, by rfl⟩

end Tomlkit
