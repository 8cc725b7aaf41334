import Verif.Spec.Append
import Verif.Reader.DagReader

/-!
# Specification vocabulary for C107

The definitions in this file belong to statements; they model no code.
-/

namespace Unixfs.Spec
open Unixfs

mutual
/-- The number of bytes in each leaf of a DAG, from left to right. -/
def leafSizes : Node → List Nat
  | .raw d _ => [d.length]
  | .other _ => [0]
  | .proto d [] _ =>
    match Pb.Data.unmarshal d with
    | .ok p => [(p.data.getD []).length]
    | .error _ => [0]
  | .proto _ (l :: ls) _ => leafSizesL (l :: ls)
def leafSizesL : List Link → List Nat
  | [] => []
  | .mk _ _ n :: ls => leafSizes n ++ leafSizesL ls
end

/-- Every leaf but the last holds at least `s` bytes. -/
def Coarse (s : Nat) (n : Node) : Prop := ∀ x ∈ (leafSizes n).dropLast, s ≤ x

/-- How often the calls `ops` on the reader `dr` ask for a block. -/
def fetches (net : Net) (dr : DR) (ops : List ROp) : Nat := (dr.run net ops).2.tick - dr.tick

end Unixfs.Spec
