import Verif.Spec.File

/-!
# Specification: what an edit in place and a truncation leave of a DAG (C71, C72)
-/

namespace Unixfs.Spec

/-- `n'` is the leaf `n` with other bytes: the same kind of node, the same CID builder (a raw leaf has
the codec of raw nodes), as many bytes. -/
def SameLeaf (n n' : Node) : Prop :=
  contentLen n' = contentLen n ∧
  ((∃ d d' b, n = .proto d [] b ∧ n' = .proto d' [] b) ∨ (∃ d d' b, n = .raw d b ∧ n' = .raw d' (b.withCodec 0x55)))

mutual
/-- The DAG `n`, whose first byte is byte `o` of the file, became `n'` by a write to the bytes `lo` to
`hi`: the same tree, in which every leaf without a byte of that range is the very same node, and every
other leaf holds as many bytes as before. -/
def Edited (lo hi : Nat) : Nat → Node → Node → Prop
  | o, .proto d (l :: ls) b, n' => ∃ ls', n' = .proto d ls' b ∧ EditedL lo hi o (l :: ls) ls'
  | o, n, n' => if contentLen n = 0 ∨ o + contentLen n ≤ lo ∨ hi ≤ o then n' = n else SameLeaf n n'
def EditedL (lo hi : Nat) : Nat → List Link → List Link → Prop
  | _, [], ls' => ls' = []
  | o, .mk nm sz n :: ls, ls' => ∃ n' ls'', ls' = .mk nm sz n' :: ls'' ∧ Edited lo hi o n n' ∧ EditedL lo hi (o + contentLen n) ls ls''
end

/-- The file `n'` is the file `n` cut off at `size` bytes: the leaves before the one that holds byte
`size` are the very same nodes, that one is replaced by a leaf with the first of its bytes, and the
others are gone. -/
def CutAt (size : Nat) (n n' : Node) : Prop :=
  ∃ pre x post x', leaves n = pre ++ x :: post ∧ leaves n' = pre ++ [x'] ∧
    (pre.map contentLen).sum ≤ size ∧ size < (pre.map contentLen).sum + contentLen x ∧
    ∃ c, content x = some c ∧ content x' = some (c.take (size - (pre.map contentLen).sum))

end Unixfs.Spec
