import Verif.Spec.Import

/-! # Specification: the block at a place of a DAG (C81) -/

namespace Unixfs.Spec
open Unixfs

/-- The block one gets to from `n` by following the links with the given numbers. -/
def blockAt : Node → List Nat → Option Node
  | n, [] => some n
  | n, i :: p =>
    match n.links[i]? with
    | some l => blockAt l.target p
    | none => none

/-- `k` items from the `a`-th on. -/
def window (l : List Bytes) (a k : Nat) : List Bytes := (l.drop a).take k

/-- Two DAGs, made of the chunks `cs` and `cs'`, have blocks at the same places; two blocks at the same
place hold the chunks of the same range, and are the same block if these chunks are the same. -/
def Aligned (n n' : Node) (cs cs' : List Bytes) : Prop :=
  ∀ p, (blockAt n p = none ∧ blockAt n' p = none) ∨
    ∃ x x' a k, blockAt n p = some x ∧ blockAt n' p = some x' ∧ a + k ≤ cs.length ∧
      content x = some (window cs a k).flatten ∧ content x' = some (window cs' a k).flatten ∧
      (window cs a k = window cs' a k → x = x')

end Unixfs.Spec
