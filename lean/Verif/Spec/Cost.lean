import Verif.Spec.ModFile
import Verif.Spec.Append

/-! # Specification: how much an edit costs (C93)

The definitions in this file belong to statements; they model no code. -/

namespace Unixfs.Spec
open Unixfs Unixfs.Mod

/-- How many of the blocks, whose bytes lie one after the other from byte `s` on, begin before byte `b`
and end after byte `a`. -/
def overlapping : List Node → Nat → Nat → Nat → Nat
  | [], _, _, _ => 0
  | x :: xs, s, a, b => (if s < b ∧ a < s + contentLen x then 1 else 0) + overlapping xs (s + contentLen x) a b

/-- How many of the leaves of the file `n` have bytes in the range from `a` up to `b`. -/
def touched (n : Node) (a b : Nat) : Nat := overlapping (leaves n) 0 a b

/-- The number of requests to the DAG service made by the calls `ops` on a new modifier of the file
`root`. A whole `trickle.Append` counts as one. -/
def requestsBy (env : Env) (root : Node) (ops : List MOp) : Nat :=
  match newDagModifier root with
  | .ok dm => (dm.run env ops).2.svc.tick
  | .error _ => 0

end Unixfs.Spec
