import Verif.Spec.Grown
import Verif.Mod.Loose
import Verif.Props.Append
import Verif.Props.Mod

/-! # C97: files stay shallow and narrow however they grow

`Grown` and `leafCount` are in `Verif.Spec.Grown`, `AppendsStored` in `Verif.Spec.ModFile`, `height` in `Verif.Spec.Append`, `Reach`
and `SizesTrue` in `Verif.Spec.File`. `Append` miscounts depths, so that its results need not be trickle
DAGs (C18); the bounds hold nevertheless, after any number of calls.

The definitions in this file belong to statements; they model no code.
-/

namespace Unixfs.Props
open Unixfs.Spec Unixfs.Import Unixfs.Import.Trickle Unixfs.Mod

theorem grown_root {m W H : Nat} {start n : Node} (h : Grown m start n) (hs : Root m (Base W H) start) : Root m (Base W H) n := by
  induction h with
  | start => exact hs
  | append _ hf hp ha ih =>
    refine append_loose ha ih ?_ (fun _ h => .nil h)
    obtain ⟨_, _, hm, _⟩ := Fresh.facts hf
    exact hm.trans hp
  | edit _ hm hd hr hn ih =>
    subst hm
    unfold results at hr
    split at hr
    · next dm hnew =>
      refine run_stable (root_stable W H hd) _ dm ?_ _ hr _ hn
      unfold newDagModifier at hnew
      split at hnew <;> cases hnew <;> exact ih
    · simp at hr

theorem counted_of_sizes {n : Node} (h : SizesTrue n) : Counted n := by
  cases n with
  | proto d ls b =>
    unfold SizesTrue at h
    obtain ⟨m, hm, _, _, hb, _⟩ := h
    intro m' hm'
    rw [hm] at hm'
    cases hm'
    rw [hb, List.length_map]
  | raw => trivial
  | other => trivial

/-- **C97** (files made by `trickle.Layout`): the height is logarithmic in the number of leaves, and so
is the number of links per node beyond `m`. -/
theorem C97_trickle {p : Params} {path : Option Bytes} {chunks : List Bytes} {fin : Option Err} {budget : Option Nat} {db db' : DB} {fuel : Nat} {start n : Node}
    (hf : Fresh p path chunks fin budget db) (h1 : 1 ≤ p.maxlinks) (h : Trickle.layout fuel db = .ok (start, db')) (hg : Grown p.maxlinks start n) :
    height n ≤ 3 * Nat.log2 (leafCount n) + 1 ∧ ∀ x, Reach n x → x.links.length ≤ p.maxlinks + 12 * Nat.log2 (leafCount n) := by
  obtain ⟨_, _, hm, _⟩ := Fresh.facts hf
  have hr := layout_loose h
  rw [hm] at hr
  have hr : Root p.maxlinks (Base 0 0) start := ⟨hr.counted, hr.shape⟩
  obtain ⟨b1, b2⟩ := (grown_root hg hr).bounds h1
  unfold leafCount
  exact ⟨by omega, fun x hx => by have := b2 x hx; omega⟩

/-- An empty file with one link per node. -/
def wNil : DB := { maxlinks := 1, src := [] }

/-- Three chunks more. -/
def wThree : DB := { maxlinks := 1, src := [[1], [2], [3]] }

/-- Twice three chunks appended to an empty file. The result is no trickle DAG; the theorem applies. -/
example : ∃ start db1 n1 db2 n db3, Trickle.layout 1 wNil = .ok (start, db1) ∧ Trickle.append 9 9 start { wThree with canGet := fun _ => true } = .ok (n1, db2) ∧
    Trickle.append 9 9 n1 { wThree with canGet := fun _ => true } = .ok (n, db3) ∧ Trickle.verify n { direct := 1, layerRepeat := 4 } ≠ .ok () ∧ leafCount n = 6 ∧ height n = 3 ∧
    (height n ≤ 3 * Nat.log2 (leafCount n) + 1 ∧ ∀ x, Reach n x → x.links.length ≤ 1 + 12 * Nat.log2 (leafCount n)) := by
  have hf0 : Fresh { maxlinks := 1 } none [] none none wNil := ⟨_, rfl, rfl⟩
  have hf1 : Fresh { maxlinks := 1 } none [[1], [2], [3]] none none wThree := ⟨_, rfl, rfl⟩
  have hq : (match Trickle.layout 1 wNil with
    | .ok (start, _) => match Trickle.append 9 9 start { wThree with canGet := fun _ => true } with
      | .ok (n1, _) => match Trickle.append 9 9 n1 { wThree with canGet := fun _ => true } with
        | .ok (n, _) => decide (Trickle.verify n { direct := 1, layerRepeat := 4 } ≠ .ok () ∧ leafCount n = 6 ∧ height n = 3)
        | .error _ => false
      | .error _ => false
    | .error _ => false) = true := by decide +kernel
  split at hq
  · next start db1 h0 =>
    split at hq
    · next n1 db2 h1 =>
      split at hq
      · next n db3 h2 =>
        obtain ⟨q1, q2, q3⟩ := of_decide_eq_true hq
        exact ⟨start, db1, n1, db2, n, db3, h0, h1, h2, q1, q2, q3,
          C97_trickle hf0 (by decide) h0 (.append (.append .start hf1 rfl h1) hf1 rfl h2)⟩
      · cases hq
    · cases hq
  · cases hq

/-- **C97** (any file with at most `m` links at its root): the height grows by a logarithm of the number
of leaves at most, and nodes do not get wider than they were or than the logarithm allows. -/
theorem C97_any {m W : Nat} {start n : Node} (hm : 1 ≤ m) (hs : SizesTrue start) (hl : start.links.length ≤ m) (hW : ∀ x, Reach start x → x.links.length ≤ W) (hg : Grown m start n) :
    height n ≤ height start + 3 * Nat.log2 (leafCount n) + 1 ∧ ∀ x, Reach n x → x.links.length ≤ max W (m + 12 * Nat.log2 (leafCount n)) := by
  have hr : Root m (Base W (height start)) start := by
    refine ⟨counted_of_sizes hs, ?_⟩
    intro i l hi
    have hlt : i < start.links.length := by by_contra hn; rw [List.getElem?_eq_none (by omega)] at hi; cases hi
    have hmem := List.mem_of_getElem? hi
    refine ⟨fun _ => Base.of ?_ (fun x hx => hW x (.step hmem hx)), fun h => by omega, fun h => by omega⟩
    have := height_ge hmem
    omega
  exact (grown_root hg hr).bounds hm

/-- A file of ten bytes in two chunks, extended, written to and cut off by a modifier. -/
example : ∃ n, (results wEnv wTen [.seek 20 0, .write [1, 2, 3], .truncate 15, .getNode]).map MRes.node = [none, none, none, some n] ∧ leafCount n = 3 ∧
    (height n ≤ height wTen + 3 * Nat.log2 (leafCount n) + 1 ∧ ∀ x, Reach n x → x.links.length ≤ max 2 (defaultLinksPerBlock + 12 * Nat.log2 (leafCount n))) := by
  have hq : (match (results wEnv wTen [.seek 20 0, .write [1, 2, 3], .truncate 15, .getNode]).map MRes.node with
    | [none, none, none, some n] => decide (leafCount n = 3)
    | _ => false) = true := by decide +kernel
  have hl : wTen.links.length ≤ 2 ∧ ∀ l ∈ wTen.links, l.target.links = [] := by decide +kernel
  split at hq
  · next n hn =>
    refine ⟨n, hn, of_decide_eq_true hq, C97_any (by decide) wTen_sizes (le_trans hl.1 (by decide)) ?_ ?_⟩
    · intro x hx
      cases hx with
      | refl => exact hl.1
      | step h1 h2 =>
        cases h2 with
        | refl => rw [hl.2 _ h1]; simp
        | step h3 _ => rw [hl.2 _ h1] at h3; simp at h3
    · have : some n ∈ (results wEnv wTen [.seek 20 0, .write [1, 2, 3], .truncate 15, .getNode]).map MRes.node := by rw [hn]; simp
      obtain ⟨r, hr, hrn⟩ := List.mem_map.mp this
      exact .edit .start rfl (fun _ => rfl) hr hrn
  · cases hq

theorem full_width {m : Nat} : ∀ {d : Nat} {n : Node}, FullAt m d n → ∀ x, Reach n x → x.links.length ≤ m
  | 0, n, h, x, hx => by
    cases hx with
    | refl => rw [show n.links = [] from h]; simp
    | step hl _ => rw [show n.links = [] from h] at hl; simp at hl
  | d + 1, n, h, x, hx => by
    cases hx with
    | refl => rw [h.1]
    | step hl hr => exact full_width (h.2 _ hl) x hr

theorem balanced_width {m : Nat} : ∀ {d : Nat} {n : Node}, BalancedAt m d n → ∀ x, Reach n x → x.links.length ≤ m
  | 0, n, h, x, hx => full_width (d := 0) h x hx
  | d + 1, n, h, x, hx => by
    obtain ⟨pre, last, h1, h2, h3, h4⟩ := h
    cases hx with
    | refl => rw [h1, List.length_append]; simp; omega
    | step hl hr =>
      rw [h1, List.mem_append, List.mem_singleton] at hl
      rcases hl with hl | rfl
      · exact full_width (h3 _ hl) x hr
      · exact balanced_width h4 x hr

/-- **C97** (files made by `balanced.Layout`). -/
theorem C97_balanced {p : Params} {path : Option Bytes} {chunks : List Bytes} {fin : Option Err} {budget : Option Nat} {db db' : DB} {fuel : Nat} {start : Built} {n : Node}
    (hf : Fresh p path chunks fin budget db) (h2 : 2 ≤ p.maxlinks) (h : Balanced.layout fuel db = .ok (start, db')) (hg : Grown p.maxlinks start.node n) :
    height n ≤ height start.node + 3 * Nat.log2 (leafCount n) + 1 ∧ ∀ x, Reach n x → x.links.length ≤ p.maxlinks + 12 * Nat.log2 (leafCount n) := by
  obtain ⟨d, hd, _⟩ := C09_balanced_shape hf h2 h
  have hw := balanced_width hd
  obtain ⟨b1, b2⟩ := C97_any (by omega) (C08_balanced_sizes hf h2 h) (hw _ (.refl _)) hw hg
  exact ⟨b1, fun x hx => by have := b2 x hx; omega⟩

/-- A balanced file of three chunks with two links per node. -/
example : ∃ r d, Balanced.layout 3 exDB = .ok (r, d) ∧ ∀ n, Grown 2 r.node n →
    (height n ≤ height r.node + 3 * Nat.log2 (leafCount n) + 1 ∧ ∀ x, Reach n x → x.links.length ≤ 2 + 12 * Nat.log2 (leafCount n)) := by
  obtain ⟨r, d, h, _⟩ := exBalanced
  exact ⟨r, d, h, fun n hn => C97_balanced exFresh (by decide) h hn⟩

end Unixfs.Props
