import Verif.Import.VerifyShape
import Verif.Props.Append

/-! # What `VerifyTrickleDagStructure` accepts (C100)

The definitions in this file belong to statements; they model no code.
-/

namespace Unixfs.Props
open Unixfs.Spec Unixfs.Import

variable {p : Trickle.VerifyParams} {n : Node}

/-- C100: `VerifyTrickleDagStructure` accepts a DAG if and only if it is laid out as a trickle DAG with the given
number of direct leaves, repetitions, leaf format and CID prefix. What is missing: it does not compare the recorded sizes
with the children, and it does not ask that a sub-graph is full before the next one begins. -/
theorem C100_verify_partial (hr : p.layerRepeat ≠ 0) : Trickle.verify n p = .ok () ↔ TrickleDag p none n :=
  Trickle.dag_iff hr n none (-1) rfl (by decide)

/-- C100: what `trickle.Layout` makes is laid out as a trickle DAG. -/
theorem C100_layout {q : Params} {path : Option Bytes} {chunks : List Bytes} {fin : Option Err} {budget : Option Nat} {db db' : DB} {fuel : Nat} {root : Node}
    (hf : Fresh q path chunks fin budget db) (h1 : 1 ≤ q.maxlinks) (hr : Trickle.layout fuel db = .ok (root, db'))
    (pfx : Option Builder) (hp : pfx = none ∨ ∃ b, q.cidBuilder = some b ∧ pfx = some b ∧ b.version ≤ 1 ∧ (b.codec = 0x55 → b.version = 1)) :
    TrickleDag { direct := q.maxlinks, layerRepeat := 4, rawLeaves := q.rawLeaves, pfx := pfx } none root :=
  (C100_verify_partial (show (4 : Nat) ≠ 0 by decide)).mp (C10_trickle_shape hf h1 hr pfx hp)

example : ∃ r d, Trickle.layout 4 exDB = .ok (r, d) ∧ TrickleDag { direct := 2, layerRepeat := 4 } none r := by
  obtain ⟨r, d, h, _⟩ := exTrickle
  exact ⟨r, d, h, C100_layout exFresh (by decide) h none (.inl rfl)⟩

theorem trickleDag_links {D : Nat} (h : TrickleDag p (some D) n) (hr : p.layerRepeat ≠ 0) (hD : 1 ≤ D) :
    n.links.length ≤ p.direct + p.layerRepeat * (D - 1) := by
  cases h with
  | mk hp hm ht hd hget hleaf hlayer hsub =>
    rename_i d ls b m
    show ls.length ≤ _
    by_contra hn
    have hi : p.direct + p.layerRepeat * (D - 1) < ls.length := by omega
    have := hlayer (p.direct + p.layerRepeat * (D - 1)) _ D (List.getElem?_eq_getElem hi) (Nat.le_add_right _ _) rfl
    unfold layerOf at this
    rw [Nat.add_sub_cancel_left, Nat.mul_div_cancel_left _ (by omega)] at this
    omega

theorem trickleDag_height {D : Option Nat} (h : TrickleDag p D n) : ∀ k, D = some k → 1 ≤ k → height n ≤ k := by
  induction h with
  | mk hp hm ht hd hget hleaf hlayer hsub ih =>
    rename_i D d ls b m
    rintro k rfl hk
    have hL : ∀ l ∈ ls, height l.target ≤ k - 1 := by
      intro l hl
      obtain ⟨i, hi, rfl⟩ := List.getElem_of_mem hl
      have hg := List.getElem?_eq_getElem hi
      by_cases hdir : i < p.direct
      · cases hx : ls[i].target with
        | raw d b => simp [height]
        | other d => simp [height]
        | proto d' ls' b' =>
          have := hleaf i _ hg hdir
          rw [hx] at this
          cases this
          simp [height, heightL]
      · have h1 := ih i _ hg (by omega) _ rfl (Nat.succ_le_succ (Nat.zero_le _))
        have h2 := hlayer i _ k hg (by omega) rfl
        omega
    have hmax : ∀ (ls : List Link), (∀ l ∈ ls, height l.target ≤ k - 1) → heightL ls ≤ k - 1 + 1 := by
      intro ls
      induction ls with
      | nil => intro _; simp [heightL]
      | cons a ls ih =>
        obtain ⟨nm, sz, c⟩ := a
        intro h
        have h1 : height c ≤ k - 1 := h (.mk nm sz c) (by simp)
        have h2 := ih (fun l hl => h l (by simp [hl]))
        simp only [heightL]
        omega
    have := hmax ls hL
    simp only [height]
    omega

/-- C100: in an accepted DAG the first `direct` children of the root are leaves, and a child in layer `k` is at most
`k` levels high and has at most `direct + layerRepeat * (k - 1)` children. -/
theorem C100_bounds (hr : p.layerRepeat ≠ 0) (h : Trickle.verify n p = .ok ()) {i : Nat} {l : Link} (hl : n.links[i]? = some l) :
    (i < p.direct → l.target.links = []) ∧
    (p.direct ≤ i → height l.target ≤ layerOf p i ∧ l.target.links.length ≤ p.direct + p.layerRepeat * (layerOf p i - 1)) := by
  cases (C100_verify_partial hr).mp h with
  | mk hp hm ht hd hget hleaf hlayer hsub =>
    refine ⟨fun hi => ?_, fun hi => ?_⟩
    · have hf := hleaf i l hl hi
      generalize l.target = t at hf
      cases hf <;> rfl
    · have h1 : 1 ≤ layerOf p i := Nat.succ_le_succ (Nat.zero_le _)
      exact ⟨trickleDag_height (hsub i l hl hi) _ rfl h1, trickleDag_links (hsub i l hl hi) hr h1⟩

/-- A leaf with the given bytes. -/
def wLeaf (b : Bytes) : Node := .proto (wrapData (some b)) [] .v0

/-- A file node that records the given sizes of its children. -/
def wBranch (sizes : List UInt64) (children : List Node) : Node :=
  .proto (mustMarshal { typ := some TFile, filesize := some sizes.sum, blocksizes := sizes }) (children.map (makeLink [])) .v0

/-- A DAG with a sub-graph is accepted, one with two levels in layer 1 is not. -/
example : Trickle.verify (wBranch [1, 1] [wLeaf [1], wBranch [1] [wLeaf [2]]]) { direct := 1, layerRepeat := 4 } = .ok () ∧
    Trickle.verify (wBranch [1, 1] [wLeaf [1], wBranch [1, 1] [wLeaf [2], wBranch [1] [wLeaf [3]]]]) { direct := 1, layerRepeat := 4 } ≠ .ok () :=
  ⟨by decide +kernel, by decide +kernel⟩

/-- C100 is violated: a DAG is accepted whose root records 7 bytes and has 1, so that no import makes it. -/
theorem C100_violated : Trickle.verify (wBranch [7] [wLeaf [1]]) { direct := 1, layerRepeat := 4 } = .ok () ∧
    ∀ {q : Params} {path : Option Bytes} {chunks : List Bytes} {fin : Option Err} {budget : Option Nat} {db db' : DB} {fuel : Nat} {root : Node},
      Fresh q path chunks fin budget db → 1 ≤ q.maxlinks → Trickle.layout fuel db = .ok (root, db') → root ≠ wBranch [7] [wLeaf [1]] := by
  refine ⟨by decide +kernel, ?_⟩
  rintro q path chunks fin budget db db' fuel root hf h1 hr rfl
  have hs := C08_trickle_sizes hf h1 hr
  simp only [wBranch, SizesTrue] at hs
  obtain ⟨m, hm, _, _, hb, _⟩ := hs
  have hm' : Pb.Data.unmarshal (mustMarshal { typ := some TFile, filesize := some [7].sum, blocksizes := [7] }) =
      .ok { typ := some TFile, filesize := some 7, blocksizes := [7] } := by decide +kernel
  rw [hm'] at hm
  cases hm
  revert hb
  decide +kernel

/-- C100 is violated in another way: a DAG is accepted in which a sub-graph without leaves comes before one with a
leaf; importing its two chunks gives another DAG. -/
theorem C100_violated_gap : Trickle.verify (wBranch [1, 0, 1] [wLeaf [1], wBranch [] [], wBranch [1] [wLeaf [2]]]) { direct := 1, layerRepeat := 4 } = .ok () ∧
    (match Trickle.layout 4 { maxlinks := 1, src := [[1], [2]] } with | .ok (n, _) => some n | .error _ => none) = some (wBranch [1, 1] [wLeaf [1], wBranch [1] [wLeaf [2]]]) :=
  ⟨by decide +kernel, by decide +kernel⟩

end Unixfs.Props
