import Verif.Spec.DirPublished
import Verif.Spec.FileForm
import Verif.Spec.Tree

/-!
# The published form of a tree (C114)

The definitions in this file belong to statements; they model no code.
-/

namespace Unixfs.Spec
open Unixfs Unixfs.Hamt Unixfs.Import

/-- `nd` is the tree in the UnixFS format, whoever made it: files in one of the two layouts, with any parameters and any chunks; symbolic links and
directories by their literal bytes, and directories also as HAMTs of any width 8 to 1024. Unlike in `Published` of `Verif/Spec/Tree.lean`, nothing is said about the
program that made the nodes. -/
inductive TreeForm (H : Hash) : Tree → Node → Prop
  | balanced {p : Params} {typ : UInt8} {chunks : List Bytes} {x : Part} (ht : typ = 0 ∨ typ = 2) (hfit : AllFit chunks) (hlen : chunks.flatten.length < 2 ^ 63)
      (h : BalancedForm (innerPart p) p.maxlinks (chunks.map (leafPart p typ)) x) : TreeForm H (.file chunks.flatten) x.node
  | trickle {p : Params} {typ : UInt8} {chunks : List Bytes} {x : Part} (ht : typ = 0 ∨ typ = 2) (hfit : AllFit chunks) (hlen : chunks.flatten.length < 2 ^ 63)
      (h : TrickleForm (leafPart p typ) (innerPart p) p.maxlinks none false chunks x) : TreeForm H (.file chunks.flatten) x.node
  | empty {b : Builder} : TreeForm H (.file []) (.proto [0x08, 2, 0x18, 0] [] b)
  | symlink {target : Bytes} {b : Builder} (hl : target.length < 2 ^ 63) : TreeForm H (.symlink target) (.proto ([0x08, 4] ++ str 0x12 target) [] b)
  | dir {lg : Nat} {b : Builder} {es : List Entry} {nd : Node} {ts : List (Bytes × Tree)} (hlo : 3 ≤ lg) (hhi : lg ≤ 10) (hb : b.codec = 0x70)
      (h : DirForm H (· = lg) b es nd) (hu : (es.map Prod.fst).Nodup) (hne : [] ∉ es.map Prod.fst) (hnames : ts.map Prod.fst = es.map Prod.fst)
      (hsub : ∀ (i : Nat) t e, ts[i]? = some t → es[i]? = some e → TreeForm H t.2 e.2.2) : TreeForm H (.dir ts) nd

end Unixfs.Spec
