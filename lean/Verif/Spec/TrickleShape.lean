import Verif.Import.Trickle

/-! # The trickle layout, in words of its documentation (C100)

The definitions in this file belong to statements; they model no code.
-/

namespace Unixfs.Spec
open Unixfs.Import

/-- The CID of the node has the version and hash of the prefix asked for, if one is asked for, and the codec; the
version is 1 instead of 0 for raw blocks. -/
def HasPrefix (p : Trickle.VerifyParams) (codec : Nat) (b : Builder) : Prop :=
  ∀ e, p.pfx = some e → b.codec = codec ∧ b.mhType = e.mhType ∧ b.mhLen = e.mhLen ∧
    b.version = (if codec = 0x55 ∧ e.version = 0 then 1 else e.version)

/-- The leaf blocks: raw blocks, if raw leaves are asked for, else unixfs nodes of type Raw without links. -/
inductive TrickleLeaf (p : Trickle.VerifyParams) : Node → Prop
  | raw {d : Bytes} {b : Builder} (hr : p.rawLeaves = true) (hp : HasPrefix p 0x55 b) : TrickleLeaf p (.raw d b)
  | proto {d : Bytes} {b : Builder} {m : Pb.Data} (hr : p.rawLeaves = false) (hp : HasPrefix p 0x70 b)
      (hm : Pb.Data.unmarshal d = .ok m) (ht : m.typ = some TRaw) : TrickleLeaf p (.proto d [] b)

/-- The layer of the `i`-th child of a node: the first `direct` children are leaves, the next `layerRepeat` are in
layer 1, the next in layer 2 and so on. -/
def layerOf (p : Trickle.VerifyParams) (i : Nat) : Nat := (i - p.direct) / p.layerRepeat + 1

/-- `TrickleDag p D n`: the DAG of `n` is laid out as a trickle DAG; if `D` is a number, its children are in layers
below `D`. The node is a unixfs file without bytes of its own, its first `direct` children are leaves, and
the other children are trickle DAGs with children in layers below their own. All children can be fetched. -/
inductive TrickleDag (p : Trickle.VerifyParams) : Option Nat → Node → Prop
  | mk {D : Option Nat} {d : Bytes} {ls : List Link} {b : Builder} {m : Pb.Data} (hp : HasPrefix p 0x70 b)
      (hm : Pb.Data.unmarshal d = .ok m) (ht : m.typ = some TFile) (hd : m.data.getD [] = [])
      (hget : ∀ l ∈ ls, p.canGet l.target = true)
      (hleaf : ∀ i l, ls[i]? = some l → i < p.direct → TrickleLeaf p l.target)
      (hlayer : ∀ i l k, ls[i]? = some l → p.direct ≤ i → D = some k → layerOf p i < k)
      (hsub : ∀ i l, ls[i]? = some l → p.direct ≤ i → TrickleDag p (some (layerOf p i)) l.target) :
      TrickleDag p D (.proto d ls b)

end Unixfs.Spec
