import Verif.Spec.Append

/-!
# Specification vocabulary for C102

The definitions in this file belong to statements; they model no code.
-/

namespace Unixfs.Spec
open Unixfs.Import

/-- `k` new chunks are added to `b` chunks, with `m` links per node, where `Append` builds what importing
everything builds: nothing is added; or the old chunks fit the direct links of the root and the new ones one
more sub-DAG; or the old file ends in one of the first three sub-DAGs. -/
def AddsAlike (m b k : Nat) : Prop := k = 0 ∨ (b ≤ m ∧ b + k ≤ 2 * m) ∨ (m < b ∧ b ≤ 4 * m)

/-- `n` was made by one `trickle.Layout` and any number of successful `trickle.Append`s, each as in
`AddsAlike`, with the same options but arbitrary splitters and stores; `chunks` are all chunks fed in. -/
inductive AppendedAlike (p : Params) : Node → List Bytes → Prop
  | layout {path chunks fin budget db fuel n db'} : Fresh p path chunks fin budget db →
      Trickle.layout fuel db = .ok (n, db') → AppendedAlike p n chunks
  | append {base old path new fin budget db g fuel h n db'} : AppendedAlike p base old → Fresh p path new fin budget db →
      AddsAlike p.maxlinks old.length new.length → Trickle.append fuel h base { db with canGet := g } = .ok (n, db') →
      AppendedAlike p n (old ++ new)

/-- The import options are those that a `DagModifier` uses when it extends the file: 174 links per node, CIDs
for dag-pb blocks, and raw leaves exactly if the CIDs are not CIDv0. -/
def AsModified (p : Params) : Prop :=
  p.maxlinks = 174 ∧ (p.cidBuilder.getD .v0).codec = 0x70 ∧ p.rawLeaves = decide ((p.cidBuilder.getD .v0).version > 0)

end Unixfs.Spec
