import Verif.Proofs.DocBuild
import Verif.Proofs.SameBack
/-!
# `parse(dumps(d)) == d`: C24
-/
namespace Tomlkit
open _root_.Spec Tomlkit.Spec

theorem dumps_text (l : List PyPair) (hk : KeysOnce (.dict l)) (hw : Writable (.dict l)) (sort : Bool) :
    ∃ ps ts l1 l2, dumpsDict sort l = .ok (entsStr none ps ++ entsStr none ts) ∧ LineEnts ps l1 ∧ SubEnts ts l2 ∧
      ((l1 ++ l2).map PyPair.key).Nodup ∧ Same (.dict l) (.dict (l1 ++ l2)) := by
  have hk' := hk
  unfold KeysOnce at hk'
  obtain ⟨cs, h1, h2, h3⟩ := children_txt l hk'.2 (proper_dict hw) sort
  obtain ⟨tb, l', e1, e2, e3, e4⟩ := dict_txt hk'.1 h2 (dictOrder_perm sort cs) h3 false
  obtain ⟨ps, ts, l1, l2, rfl, hB, g1, g2⟩ := e2.ex
  refine ⟨ps, ts, l1, l2, ?_, g1, g2, e2.once, e4⟩
  unfold dumpsDict PyVal.toItem
  dsimp only
  rw [h1]
  dsimp only
  rw [e1]
  have : tb.asString = entsStr none ps ++ entsStr none ts := by
    rw [← entsStr_append, ← hB.body, ← bodyStr_ents]
    rcases tb with ⟨⟨b, m, d, p, tk⟩, t, a, s, n, dd⟩
    rfl
  show Except.ok tb.asString = _
  rw [this]

/-- C24: for every mapping `d` from str to values built from bool, int, str, float (by its repr), dates, times, lists and
dicts, with and without `sort_keys`, `parse(dumps(d)).unwrap() == d`, provided `d` avoids one shape (`Unconfused`): a dict
written as `[[...]]` headers only, under the key `a`, somewhere inside the second or a later element of a list of dicts under the
key `a` of `d`. -/
theorem C24_dumps_parse_partial (d : List PyPair) (hk : KeysOnce (.dict d)) (hw : Writable (.dict d)) (hu : Unconfused d) (sort : Bool) :
    ∃ text doc w, dumpsDict sort d = .ok text ∧ parse text = .ok doc ∧ (∃ n0, ∀ n ≥ n0, doc.unwrap n = .ok w) ∧ Same (.dict d) (.dict w) := by
  obtain ⟨ps, ts, l1, l2, e1, e2, e3, e4, e5⟩ := dumps_text d hk hw sort
  have hu' := unconfused_same hk e5 hu
  rw [List.map_append, List.nodup_append] at e4
  obtain ⟨b, text, f1, f2, f3, f4⟩ := e3.txt e4.2.1 none [] [] (b := []) (tail := []) (fun x hx => by cases hx) (.inl rfl) (by
    intro k w hm
    refine ⟨(fun a h => by cases h), (fun _ h => by cases h), (fun y h => by cases h), ?_⟩
    rintro _ x r rfl y hy
    exact hu' k x r (by simp [hm]) y hy)
  have hpf : pfxOf ([] ++ []) = none := rfl
  rw [hpf] at f1
  simp only [List.append_nil] at f1
  rw [f1] at e1
  obtain ⟨c, g1, g2, g3, _⟩ := doc_reads (e2.lines none f2 f3) (nest_flat e4.1) f4 (fun k hk2 hk1 => e4.2.2 k hk1 k hk2 rfl)
  exact ⟨_, c, l1 ++ l2, e1, g1, meansIn_unwrap g2 g3, e5⟩

/-- `{"a": [{"a": {"b": [{}, {}]}}, {"x y": {"b": [{"z": 5}, {}]}, "p": [1]}], "q": "s", "t": {"u": {"v": 1}}}`: lists of dicts in
lists of dicts, dicts without a header, and the confusing item where it does no harm. -/
def sampleDoc : List PyPair :=
  [.mk (t!"a") (.list [.dict [.mk (t!"a") (.dict [.mk (t!"b") (.list [.dict [], .dict []])])],
     .dict [.mk (t!"x y") (.dict [.mk (t!"b") (.list [.dict [.mk (t!"z") (.int 5)], .dict []])]), .mk (t!"p") (.list [.int 1])]]),
   .mk (t!"q") (.str (t!"s")), .mk (t!"t") (.dict [.mk (t!"u") (.dict [.mk (t!"v") (.int 1)])])]

theorem sampleDoc_ok : KeysOnce (.dict sampleDoc) ∧ Writable (.dict sampleDoc) ∧ Unconfused sampleDoc := by
  refine ⟨?_, ?_, ?_⟩
  · simp [sampleDoc, KeysOnce, KeysOnceIn, KeysOncePair, KeysOnceAll]
  · simp [sampleDoc, Writable, Throughout, ThroughoutIn, ThroughoutPair, ThroughoutAll, Proper]
  · intro a x r hm y hy
    simp only [sampleDoc, List.mem_cons, PyPair.mk.injEq, PyVal.list.injEq, List.cons.injEq, reduceCtorEq, and_false, List.not_mem_nil, or_false] at hm
    obtain ⟨rfl, rfl, rfl⟩ := hm
    rw [List.mem_singleton] at hy
    subst hy
    simp [NoSuchItem, Throughout, ThroughoutIn, ThroughoutPair, ThroughoutAll]

set_option maxRecDepth 10000 in
/-- its text -/
example : (dumpsDict false sampleDoc).toOption = some (t!"q = \"s\"\n[[a]]\n[[a.a.b]]\n[[a.a.b]]\n\n[[a]]\np = [1]\n\n[[a.\"x y\".b]]\nz = 5\n\n[[a.\"x y\".b]]\n\n[t.u]\nv = 1\n") := by
  decide +kernel

example := C24_dumps_parse_partial sampleDoc sampleDoc_ok.1 sampleDoc_ok.2.1 sampleDoc_ok.2.2 true

/-- `v[k]` -/
def _root_.Tomlkit.PyVal.sub (k : Str) : PyVal → Option PyVal
  | .dict l => (l.find? fun p => p.key == k).map fun (.mk _ v) => v
  | _ => none

/-- `v[n]` -/
def _root_.Tomlkit.PyVal.nth (n : Nat) : PyVal → Option PyVal
  | .list l => l[n]?
  | _ => none

/-- `d["a"][1]["a"]` -/
def inSecond (d : List PyPair) : Option PyVal := (((PyVal.dict d).sub (t!"a")).bind (PyVal.nth 1)).bind (PyVal.sub (t!"a"))

/-- `{"a": [{}, {"a": {"b": [{}, {}]}}]}` -/
def confused : List PyPair := [.mk (t!"a") (.list [.dict [], .dict [.mk (t!"a") (.dict [.mk (t!"b") (.list [.dict [], .dict []])])]])]

set_option maxRecDepth 10000 in
/-- C24 is false in general: `d = {"a": [{}, {"a": {"b": [{}, {}]}}]}` is written as `[[a]]`, `[[a]]`, `[[a.a.b]]`, `[[a.a.b]]`, and read
back as `{"a": [{}, {"a": [{"b": [{}]}, {"b": [{}]}]}]}`: `d["a"][1]["a"]` was a dict, and becomes a list. -/
theorem C24_counterexample_confused :
    dumpsDict false confused = .ok (t!"[[a]]\n[[a]]\n[[a.a.b]]\n[[a.a.b]]\n") ∧
    (inSecond confused).map PyVal.isDict = some true ∧
    (((parse (t!"[[a]]\n[[a]]\n[[a.a.b]]\n[[a.a.b]]\n")).toOption.bind fun c => (c.unwrap 50).toOption).bind inSecond).map PyVal.isDict =
      some false :=
  ⟨by rfl, by rfl, by decide +kernel⟩

end Tomlkit
