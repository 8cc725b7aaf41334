import Verif.Dag

/-!
# Blocks

The bytes of a block, as go-merkledag writes them, for an arbitrary function from nodes to the bytes of
their CIDs. The definitions in this file belong to statements; they model no code.
-/

namespace Unixfs.Spec
open Unixfs

/-- A `PBLink`: `Hash` (1), `Name` (2), `Tsize` (3). -/
def encLink (cid : Node → Bytes) (l : Link) : Bytes :=
  Pb.encBytesField 1 (cid l.target) ++ Pb.encBytesField 2 l.name ++ Pb.encVarintField 3 l.tsize.toNat

/-- A block: for a protobuf node a `PBNode`, that is `Links` (2), then `Data` (1) unless it is empty; the
bytes themselves for any other node. -/
def encBlock (cid : Node → Bytes) : Node → Bytes
  | .proto d ls _ => (ls.map (fun l => Pb.encBytesField 2 (encLink cid l))).flatten ++ (if d = [] then [] else Pb.encBytesField 1 d)
  | .raw d _ => d
  | .other d => d

mutual
/-- The bytes of the blocks of a DAG, a block counted as often as there are ways to it. -/
def treeBytes (cid : Node → Bytes) : Node → Nat
  | .proto d ls b => (encBlock cid (.proto d ls b)).length + treeBytesL cid ls
  | .raw d _ => d.length
  | .other d => d.length
def treeBytesL (cid : Node → Bytes) : List Link → Nat
  | [] => 0
  | .mk _ _ n :: ls => treeBytes cid n + treeBytesL cid ls
end

/-- No path from the node is longer than `d`. -/
def DepthLE : Nat → Node → Prop
  | 0, n => n.links = []
  | d + 1, n => ∀ l ∈ n.links, DepthLE d l.target

end Unixfs.Spec
