import Verif.Spec.Dir
import Verif.Spec.Hamt

/-! # The CID builder of a directory (C94)

The definitions in this file belong to statements; they model no code.
-/

namespace Unixfs.Dir
open Unixfs.Hamt (pbBuilder)

/-- The CID builder of a node in the dag-pb format. -/
def madeWith : Node → Option Builder
  | .proto _ _ b => some b
  | _ => none

/-- The CID builder after a list of calls: the last one set (nil stands for CIDv0), made to give CIDs of
dag-pb nodes; `b` if none is set. -/
def lastBuilder (b : Builder) : List DOp → Builder
  | [] => b
  | .setCidBuilder b' :: ops => lastBuilder (pbBuilder b') ops
  | _ :: ops => lastBuilder b ops

end Unixfs.Dir
