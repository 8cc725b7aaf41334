import Verif.Spec.Tree
import Verif.Spec.Kept

/-!
# Specification vocabulary for C109

The definitions in this file belong to statements; they model no code.
-/

namespace Unixfs.Spec
open Unixfs.Hamt hiding exec execAll results NoEmptyName lastWrite Cfg
open Unixfs.Dir Unixfs.File

/-- `nd` is a directory that was made empty and then changed in any number of sessions; `M` is what a plain map
from names to links would hold after the same calls, and `S` are the nodes in the store. The DAG service, the
threshold, the width of new shards and what fails may be others each time. -/
inductive KeptDir (H : Hash) : (S : List Node) → (M : NMap) → (nd : Node) → Prop
  /-- `EmptyDirNode`, stored by its maker. -/
  | empty : KeptDir H [emptyDirNode] (mapOf []) emptyDirNode
  /-- A session: the directory is loaded from its node, any calls are made (whether they fail or not), and the node
  that `GetNode` returns is stored by the client. What is added is in the store. -/
  | session {S M nd d env lg ops thr nd' c} : KeptDir H S M nd → Env.Valid env lg → env.Real → env.H = H → NoEmptyName ops →
      (∀ name x, DOp.add name x ∈ ops → ∀ y, Reach x y → y ∈ S) → newDirectoryFromNode nd = .ok d →
      exec env .getNode (execAll env ops { start d thr with st := S }) = (.node nd', c) →
      KeptDir H (nd' :: c.st) (mapAfter env M ops { start d thr with st := S }) nd'
  /-- Something else is stored. -/
  | more {S S' M nd} : KeptDir H S M nd → (∀ x ∈ S, x ∈ S') → KeptDir H S' M nd

/-- `nd` stands for the tree `tr`, all of whose files and directories were made and changed with this library,
with the store `S`. -/
inductive KeptTree (H : Hash) (S : List Node) : (tr : Tree) → (nd : Node) → Prop
  | file {n c grow} : Kept S n c grow → KeptTree H S (.file c) n
  | symlink {target data : Bytes} {b : Builder} : target.length < 2 ^ 63 → symlinkData target = .ok data → .proto data [] b ∈ S →
      KeptTree H S (.symlink target) (.proto data [] b)
  | dir {M nd es} : KeptDir H S M nd → (∀ k, (List.lookup k es).isSome = (M k).isSome) →
      (∀ k t v, List.lookup k es = some t → M k = some v → KeptTree H S t v.2) → KeptTree H S (.dir es) nd

end Unixfs.Spec
