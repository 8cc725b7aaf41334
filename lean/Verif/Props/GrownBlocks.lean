import Verif.Props.Grown
import Verif.Props.BlockSize
import Verif.Mod.Tidy

/-! # C98: blocks stay small however a file grows

`Grown` and `leafCount` are in `Verif.Spec.Grown`, `encBlock` in `Verif.Spec.Encode`.

The definitions in this file belong to statements; they model no code.
-/

namespace Unixfs.Props
open Unixfs.Spec Unixfs.Import Unixfs.Import.Trickle Unixfs.Mod

variable {p : Params} {path : Option Bytes} {chunks : List Bytes} {fin : Option Err} {budget : Option Nat} {db db' : DB} {fuel w : Nat} {cid : Node → Bytes} {n x : Node}

theorem grown_tidy {m : Nat} {start n : Node} (h : Grown m start n) (hs : Tidy start) : Tidy n := by
  induction h with
  | start => exact hs
  | append _ _ _ ha ih => exact append_closed tidy_closed ha ih
  | edit _ _ hd hr hn ih =>
    unfold results at hr
    split at hr
    · next dm hnew =>
      refine run_stable (tidy_stable hd) _ dm ?_ _ hr _ hn
      unfold newDagModifier at hnew
      split at hnew <;> cases hnew <;> exact ih
    · simp at hr

theorem balanced_tidy {root : Built} (hf : Fresh p path chunks fin budget db) (h2 : 2 ≤ p.maxlinks) (h : Balanced.layout fuel db = .ok (root, db')) : Tidy root.node := by
  obtain ⟨hi, hp, hm, hr, hc, _⟩ := Fresh.facts hf
  obtain ⟨new, ha, hnm, hcase⟩ := balanced_ok hf h2 h
  rcases hcase with ⟨he, hn, _⟩ | ⟨t, d, hroot, hch, hleft, _⟩
  · exact leaf_tidy (.inl rfl) hn
  · rw [hroot, Fresh.cfg hf]
    exact T.tidy _ (cfgOK_file _ _) t (by rw [hch]; exact ha.lim)

/-- **C98** (files made by `trickle.Layout`): the length of a block, beyond 1 MiB and 35 bytes, is accounted
for by its links. -/
theorem C98_trickle {start : Node} (h : Trickle.layout fuel db = .ok (start, db')) (hg : Grown p.maxlinks start n) (hw : w < 100) (hcid : ∀ x, (cid x).length ≤ w) (hx : Reach n x) :
    (encBlock cid x).length ≤ 1048576 + 35 + x.links.length * (w + 28) :=
  ((grown_tidy hg (layout_closed tidy_closed h)).reach hx).len hw hcid

/-- **C98** (files made by `balanced.Layout`). -/
theorem C98_balanced {start : Built} (hf : Fresh p path chunks fin budget db) (h2 : 2 ≤ p.maxlinks) (h : Balanced.layout fuel db = .ok (start, db')) (hg : Grown p.maxlinks start.node n)
    (hw : w < 100) (hcid : ∀ x, (cid x).length ≤ w) (hx : Reach n x) :
    (encBlock cid x).length ≤ 1048576 + 35 + x.links.length * (w + 28) :=
  ((grown_tidy hg (balanced_tidy hf h2 h)).reach hx).len hw hcid

/-- The bound of C97 in bytes. -/
theorem default_len {k : Nat} (hk : x.links.length ≤ 174 + 12 * Nat.log2 k) (hn : k < 2 ^ 64) (h : (encBlock cid x).length ≤ 1048576 + 35 + x.links.length * (36 + 28)) :
    (encBlock cid x).length ≤ 1108131 := by
  have : Nat.log2 k < 64 := by
    by_cases h0 : k = 0
    · subst h0; decide
    · exact (Nat.log2_lt h0).mpr hn
  omega

/-- **C98**, with the links per node that the library uses, CIDs of at most 36 bytes (CIDv0, or CIDv1 with
a hash of 32 bytes) and less than 2 ^ 64 leaves: no block of the file ever has more than 1,108,131 bytes,
little more than half of the 2 MiB that can be transferred. -/
theorem C98_trickle_default {start : Node} (hf : Fresh p path chunks fin budget db) (hm : p.maxlinks = defaultLinksPerBlock) (h : Trickle.layout fuel db = .ok (start, db'))
    (hg : Grown p.maxlinks start n) (hn : leafCount n < 2 ^ 64) (hcid : ∀ x, (cid x).length ≤ 36) (hx : Reach n x) : (encBlock cid x).length ≤ 1108131 := by
  have hd : defaultLinksPerBlock = 174 := by decide
  have hk := (C97_trickle hf (by omega) h hg).2 x hx
  rw [hm, hd] at hk
  exact default_len hk hn (C98_trickle h hg (by omega) hcid hx)

/-- **C98**, likewise for files made by `balanced.Layout`. -/
theorem C98_balanced_default {start : Built} (hf : Fresh p path chunks fin budget db) (hm : p.maxlinks = defaultLinksPerBlock) (h : Balanced.layout fuel db = .ok (start, db'))
    (hg : Grown p.maxlinks start.node n) (hn : leafCount n < 2 ^ 64) (hcid : ∀ x, (cid x).length ≤ 36) (hx : Reach n x) : (encBlock cid x).length ≤ 1108131 := by
  have hd : defaultLinksPerBlock = 174 := by decide
  have hk := (C97_balanced hf (by omega) h hg).2 x hx
  rw [hm, hd] at hk
  exact default_len hk hn (C98_balanced hf (by omega) h hg (by omega) hcid hx)

/-- A file of one chunk, and two chunks more. -/
def wSmall : DB := { maxlinks := defaultLinksPerBlock, src := [[1, 2, 3]] }
def wMore : DB := { maxlinks := defaultLinksPerBlock, src := [[4], [5, 6]] }

/-- The file of one chunk is a single block. After two chunks were appended that block has a payload and
two links: 99 bytes, that is both what a leaf has and what the links take. A write and a truncation
follow. The theorems apply to every such file. -/
example : ∃ start db1 n1 db2 n, Balanced.layout 3 wSmall = .ok (start, db1) ∧ Trickle.append 9 9 start.node { wMore with canGet := fun _ => true } = .ok (n1, db2) ∧
    (results wEnv n1 [.seek 1 0, .write [7, 7, 7, 7, 7, 7, 7], .truncate 5, .getNode]).map MRes.node = [none, none, none, some n] ∧
    (encBlock exCid n1).length = 99 ∧ n1.links.length = 2 ∧ leafCount n = 3 ∧ (∀ x, Reach n x → (encBlock exCid x).length ≤ 1108131) ∧
    (∀ x, Reach n x → (encBlock exCid x).length ≤ 1048576 + 35 + x.links.length * (34 + 28)) := by
  have hf0 : Fresh { maxlinks := defaultLinksPerBlock } none [[1, 2, 3]] none none wSmall := ⟨_, rfl, rfl⟩
  have hf1 : Fresh { maxlinks := defaultLinksPerBlock } none [[4], [5, 6]] none none wMore := ⟨_, rfl, rfl⟩
  have hq : (match Balanced.layout 3 wSmall with
    | .ok (start, _) => match Trickle.append 9 9 start.node { wMore with canGet := fun _ => true } with
      | .ok (n1, _) => match (results wEnv n1 [.seek 1 0, .write [7, 7, 7, 7, 7, 7, 7], .truncate 5, .getNode]).map MRes.node with
        | [none, none, none, some n] => decide ((encBlock exCid n1).length = 99 ∧ n1.links.length = 2 ∧ leafCount n = 3)
        | _ => false
      | .error _ => false
    | .error _ => false) = true := by decide +kernel
  split at hq
  · next start db1 h0 =>
    split at hq
    · next n1 db2 h1 =>
      split at hq
      · next n hn =>
        obtain ⟨q1, q2, q3⟩ := of_decide_eq_true hq
        have hg : Grown defaultLinksPerBlock start.node n := by
          have : some n ∈ (results wEnv n1 [.seek 1 0, .write [7, 7, 7, 7, 7, 7, 7], .truncate 5, .getNode]).map MRes.node := by rw [hn]; simp
          obtain ⟨r, hr, hrn⟩ := List.mem_map.mp this
          exact .edit (.append .start hf1 rfl h1) rfl (fun _ => rfl) hr hrn
        exact ⟨start, db1, n1, db2, n, h0, h1, hn, q1, q2, q3,
          fun x hx => C98_balanced_default hf0 rfl h0 hg (by omega) (fun _ => by simp [exCid]) hx,
          fun x hx => C98_balanced hf0 (by decide) h0 hg (by omega) (fun _ => by simp [exCid]) hx⟩
      · cases hq
    · cases hq
  · cases hq

/-- Three chunks appended to an empty file; the theorem applies to whatever follows. -/
example : ∃ start db1, Trickle.layout 1 wNil = .ok (start, db1) ∧ (∃ n db2, Trickle.append 9 9 start { wThree with canGet := fun _ => true } = .ok (n, db2) ∧ n.links.length = 2) ∧
    ∀ n, Grown 1 start n → ∀ x, Reach n x → (encBlock exCid x).length ≤ 1048576 + 35 + x.links.length * (34 + 28) := by
  have hq : (match Trickle.layout 1 wNil with
    | .ok (start, _) => match Trickle.append 9 9 start { wThree with canGet := fun _ => true } with
      | .ok (n1, _) => decide (n1.links.length = 2)
      | .error _ => false
    | .error _ => false) = true := by decide +kernel
  split at hq
  · next start db1 h0 =>
    split at hq
    · next n1 db2 h1 =>
      exact ⟨start, db1, h0, ⟨n1, db2, h1, of_decide_eq_true hq⟩, fun n hg x hx => C98_trickle (p := { maxlinks := 1 }) h0 hg (by omega) (fun _ => by simp [exCid]) hx⟩
    · cases hq
  · cases hq

end Unixfs.Props
