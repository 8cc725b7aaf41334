import Verif.FSNode

/-! # Specification of FSNode mutation histories (C04) -/

namespace Unixfs.Spec

/-- The mutating calls of the `FSNode` API. -/
inductive FSOp where
  | setData (d : Option Bytes)
  | addBlockSize (s : UInt64)
  | removeBlockSize (i : Nat)
  | removeAllBlockSizes
deriving DecidableEq, Repr

/-- What a caller believes the node holds: some data and a list of block sizes. -/
structure FileView where
  data : Bytes := []
  blocks : List UInt64 := []
deriving DecidableEq, Repr

/-- The intended effect of a call; `none`: the call panics. -/
def FileView.apply (v : FileView) : FSOp → Option FileView
  | .setData d => some { v with data := d.getD [] }
  | .addBlockSize s => some { v with blocks := v.blocks ++ [s] }
  | .removeBlockSize i => if i < v.blocks.length then some { v with blocks := v.blocks.eraseIdx i } else none
  | .removeAllBlockSizes => some { v with blocks := [] }

/-- The effect of a history. -/
def FileView.run (v : FileView) : List FSOp → Option FileView
  | [] => some v
  | op :: ops => match v.apply op with
    | none => none
    | some v' => v'.run ops

/-- Number of bytes a file with this data and these blocks has. -/
def FileView.total (v : FileView) : Nat := v.data.length + (v.blocks.map UInt64.toNat).sum

end Unixfs.Spec

namespace Unixfs

/-- The corresponding calls on the model. -/
def FSNode.apply (n : FSNode) : Spec.FSOp → Except Err FSNode
  | .setData d => .ok (n.setData d)
  | .addBlockSize s => .ok (n.addBlockSize s)
  | .removeBlockSize i => n.removeBlockSize i
  | .removeAllBlockSizes => .ok n.removeAllBlockSizes

def FSNode.runOps (n : FSNode) : List Spec.FSOp → Except Err FSNode
  | [] => .ok n
  | op :: ops => match n.apply op with
    | .error e => .error e
    | .ok n' => n'.runOps ops

/-- Nodes a client can hold: made by `NewFSNode` or `FSNodeFromBytes` and changed through the API.
Slices passed to `SetData` have a Go length. -/
inductive ApiNode : FSNode → Prop
  | new (t : UInt32) : ApiNode (FSNode.new t)
  | decoded {b : Bytes} {n : FSNode} (h : FSNode.fromBytes b = .ok n) : ApiNode n
  | op {n n' : FSNode} (o : Spec.FSOp) (hn : ApiNode n)
      (hlen : ∀ d, o = .setData (some d) → d.length < 2 ^ 63) (h : n.apply o = .ok n') : ApiNode n'

end Unixfs
