import Verif.Spec.Published
import Verif.Spec.Dir

/-!
# The published form of a directory (C113)

The definitions in this file belong to statements; they model no code.
-/

namespace Unixfs.Spec
open Unixfs Unixfs.Hamt

/-- The link for an entry. -/
def entryLink (e : Entry) : Link := .mk e.1 e.2.1 e.2.2

/-- A directory of entries, as the UnixFS specification has it: a node with the data `08 01` (type 1, directory) and a link for each entry, or a HAMT of
one of the widths `2 ^ lg` with `W lg`. The links of a plain directory are sorted when the node is encoded, so that their order is left open here. -/
inductive DirForm (H : Hash) (W : Nat → Prop) (b : Builder) (es : List Entry) : Node → Prop
  | plain {ls : List Link} (h : ls.Perm (es.map entryLink)) : DirForm H W b es (.proto [0x08, 1] ls b)
  | sharded {lg : Nat} {nd : Node} (hw : W lg) (h : HamtForm H lg b 0 es nd) : DirForm H W b es nd

end Unixfs.Spec
