import Verif.Spec.File
import Verif.Dag

/-! # Specification: how the CIDs of the blocks of a file are made (C95)

The definitions in this file belong to statements; they model no code.
-/

namespace Unixfs.Spec

/-- The CID of the block is made with the version and the hash function of `B`: with the builder `B` itself
for blocks in the dag-pb format, and with `B` changed to the raw codec (which makes it CIDv1) for raw blocks. -/
def Kin (B : Builder) : Node → Prop
  | .proto _ _ b => b = B
  | .raw _ b => b = B.withCodec Builder.rawCodec
  | .other _ => True

/-- The block is not a raw block. -/
def NotRaw : Node → Prop
  | .raw _ _ => False
  | _ => True

/-- The block has links unless it is a raw block: the leaves of a DAG of such blocks are raw. -/
def LeafRaw : Node → Prop
  | .proto _ ls _ => ls ≠ []
  | _ => True

/-- Every block of the DAG below `n`, and `n` itself. -/
def Throughout (P : Node → Prop) (n : Node) : Prop := ∀ x, Reach n x → P x

/-- The CID builder of a root node, for dag-pb blocks. -/
def rootBuilder : Node → Builder
  | .proto _ _ b => { b with codec := 0x70 }
  | .raw _ b => { b with codec := 0x70 }
  | .other _ => .v0

end Unixfs.Spec
