import Verif.Import.AppendSame
import Verif.Spec.AppendSame
import Verif.Props.Append

/-!
# C102: appending to an imported file gives what importing everything gives

`AddsAlike` says for which numbers of chunks this holds.
-/

namespace Unixfs.Props
open Unixfs Unixfs.Import Unixfs.Spec

theorem appendedAlike_made {p : Params} {n : Node} {chunks : List Bytes} (h : AppendedAlike p n chunks) : Made p n chunks.flatten := by
  induction h with
  | layout hf hr => exact .layout hf hr
  | append _ hf _ hr ih => rw [List.flatten_append]; exact .append ih hf hr

theorem appendedAlike_tree {p : Params} (h1 : 1 ≤ p.maxlinks) {n : Node} {chunks : List Bytes} (h : AppendedAlike p n chunks) :
    ∃ ts, n = (T.node ts).toNode ⟨p.rawLeaves, p.cidBuilder, TRaw⟩ ∧ T.chunksL ts = chunks ∧ Trickle.LG p.maxlinks 0 ts False := by
  induction h with
  | layout hf hr =>
    obtain ⟨hi, hp, hm, -⟩ := Fresh.facts hf
    obtain ⟨ts, hroot, hch, hl⟩ := Trickle.layoutF _ hi (by omega) _ hr
    rw [Fresh.cfg hf] at hroot
    exact ⟨ts, hroot, by rw [hch, hp], by rw [← hm]; exact hl⟩
  | @append base old path new fin budget db g fuel h n db' hb hf hcase hr ih =>
    obtain ⟨ts, hroot, hch, hl⟩ := ih
    obtain ⟨hi, hp⟩ := Fresh.facts_get hf g
    obtain ⟨_, _, hm, _, _, hse, _⟩ := Fresh.facts hf
    obtain ⟨_, hs, ha⟩ := C16_history h1 (appendedAlike_made hb)
    obtain ⟨hfin, -⟩ := C57_append_no_truncation hf h1 hs ha hr
    have hcfg : ({ db with canGet := g } : DB).cfg TRaw = ⟨p.rawLeaves, p.cidBuilder, TRaw⟩ := Fresh.cfg hf TRaw
    rw [hroot, ← hcfg] at hr
    obtain ⟨us, e1, e2, e3⟩ := Trickle.append_same (m := p.maxlinks) (db := { db with canGet := g }) (by omega) hm hi (hse.trans hfin) hl (by
      rw [hp, hch]
      rcases hcase with h | h | h
      · exact .inl (List.length_eq_zero_iff.mp h)
      · exact .inr (.inl h)
      · exact .inr (.inr h)) hr
    exact ⟨us, by rw [e1, hcfg], by rw [e2, hch, hp], e3⟩

/-- C102: the same DAG as one import of all chunks. -/
theorem C102_append_partial {p : Params} (h1 : 1 ≤ p.maxlinks) {n : Node} {chunks : List Bytes} (h : AppendedAlike p n chunks)
    {path : Option Bytes} {fin : Option Err} {budget : Option Nat} {db db' : DB} {fuel : Nat} {root : Node}
    (hf : Fresh p path chunks fin budget db) (hr : Trickle.layout fuel db = .ok (root, db')) : n = root := by
  obtain ⟨ts, e1, e2, e3⟩ := appendedAlike_tree h1 h
  obtain ⟨us, g1, g2, g3⟩ := appendedAlike_tree h1 (AppendedAlike.layout hf hr)
  have := (e3.same g3 (by rw [e2, g2])).ext (by rw [e2, g2])
  rw [e1, g1, this]

section Examples

/-- Two links per node. -/
def twoLayout (chunks : List Bytes) : Node := match Trickle.layout 9 { maxlinks := 2, src := chunks } with | .ok (r, _) => r | .error _ => .other []

def twoAppend (n : Node) (chunks : List Bytes) : Node := match Trickle.append 9 9 n { maxlinks := 2, src := chunks } with | .ok (r, _) => r | .error _ => .other []

def numbered (a k : Nat) : List Bytes := (List.range k).map (fun i => [UInt8.ofNat (a + i)])

theorem twoLayout_alike (chunks : List Bytes) (h : (Trickle.layout 9 { maxlinks := 2, src := chunks }).isOk) : AppendedAlike { maxlinks := 2 } (twoLayout chunks) chunks := by
  cases hr : Trickle.layout 9 { maxlinks := 2, src := chunks } with
  | error e => rw [hr] at h; cases h
  | ok q =>
    obtain ⟨n, db'⟩ := q
    unfold twoLayout
    rw [hr]
    exact .layout (path := none) (fin := none) (budget := none) ⟨_, rfl, rfl⟩ hr

theorem twoAppend_alike {n : Node} {old : List Bytes} (chunks : List Bytes) (h : AppendedAlike { maxlinks := 2 } n old) (hc : AddsAlike 2 old.length chunks.length)
    (hok : (Trickle.append 9 9 n { maxlinks := 2, src := chunks }).isOk) : AppendedAlike { maxlinks := 2 } (twoAppend n chunks) (old ++ chunks) := by
  cases hr : Trickle.append 9 9 n { maxlinks := 2, src := chunks } with
  | error e => rw [hr] at hok; cases hok
  | ok q =>
    obtain ⟨n', db'⟩ := q
    unfold twoAppend
    rw [hr]
    exact .append (path := none) (fin := none) (budget := none) (g := fun _ => true) h ⟨_, rfl, rfl⟩ hc hr

/-- One chunk, then three, then thirty. -/
example : AppendedAlike { maxlinks := 2 } (twoAppend (twoAppend (twoLayout (numbered 0 1)) (numbered 1 3)) (numbered 4 30)) (numbered 0 1 ++ numbered 1 3 ++ numbered 4 30) := by
  refine twoAppend_alike _ (twoAppend_alike _ (twoLayout_alike _ (by decide +kernel)) (.inr (.inl ⟨by decide, by decide⟩)) (by decide +kernel))
    (.inr (.inr ⟨by decide, by decide⟩)) (by decide +kernel)

example : twoAppend (twoAppend (twoLayout (numbered 0 1)) (numbered 1 3)) (numbered 4 30) = twoLayout (numbered 0 34) := by decide +kernel

/-- C102 does not hold where the new chunks need more than one sub-DAG below a root that has none yet: the
first of them is made as large as one of the second layer. -/
theorem C102_violated_direct : content (twoAppend (twoLayout (numbered 0 1)) (numbered 1 4)) = content (twoLayout (numbered 0 5)) ∧
    (twoAppend (twoLayout (numbered 0 1)) (numbered 1 4)).links.length = 3 ∧ (twoLayout (numbered 0 5)).links.length = 4 := by decide +kernel

/-- C102 does not hold where the old file ends in the last sub-DAG of the first layer: this is not filled up. -/
theorem C102_violated_last : content (twoAppend (twoLayout (numbered 0 9)) (numbered 9 1)) = content (twoLayout (numbered 0 10)) ∧
    (twoAppend (twoLayout (numbered 0 9)) (numbered 9 1)).links.length = 7 ∧ (twoLayout (numbered 0 10)).links.length = 6 := by decide +kernel

/-- C102 does not hold where the old file ends in the second layer: the next sub-DAG is too small. -/
theorem C102_violated_second : content (twoAppend (twoLayout (numbered 0 20)) (numbered 20 4)) = content (twoLayout (numbered 0 24)) ∧
    twoAppend (twoLayout (numbered 0 20)) (numbered 20 4) ≠ twoLayout (numbered 0 24) := by decide +kernel

end Examples

end Unixfs.Props
