import Verif.Dag

/-!
# Specification: what a file DAG means

Independent of the importers, the reader and the modifier. The only codec used is
`Pb.Data.unmarshal`, which `Verif.Props.Format` ties to the wire format.
-/

namespace Unixfs.Spec

/-- A decoded unixfs message of a kind that carries file bytes (File or Raw). -/
def IsFileMsg (m : Pb.Data) : Prop := m.typ = some TFile ∨ m.typ = some TRaw

instance (m : Pb.Data) : Decidable (IsFileMsg m) := by unfold IsFileMsg; infer_instance

mutual
/-- The bytes of the file a DAG represents: a raw block is its bytes, a node with links the
concatenation of its children, a node without links its unixfs data. -/
def content : Node → Option Bytes
  | .raw d _ => some d
  | .other _ => none
  | .proto d [] _ =>
    match Pb.Data.unmarshal d with
    | .ok m => if IsFileMsg m then some (m.data.getD []) else none
    | .error _ => none
  | .proto _ (l :: ls) _ => contentL (l :: ls)
def contentL : List Link → Option Bytes
  | [] => some []
  | .mk _ _ n :: ls =>
    match content n, contentL ls with
    | some a, some b => some (a ++ b)
    | _, _ => none
end

/-- Number of content bytes of a DAG. -/
def contentLen (n : Node) : Nat := ((content n).getD []).length

mutual
/-- Every node records the truth: one block size per link, equal to the number of content bytes
under that link, and the file size equal to the number of content bytes under the node. A node with
links carries no data of its own. (Sizes are 64-bit, so this is modulo 2^64.) -/
def SizesTrue : Node → Prop
  | .raw _ _ => True
  | .other _ => False
  | .proto d ls b => ∃ m, Pb.Data.unmarshal d = .ok m ∧ IsFileMsg m ∧ (ls ≠ [] → m.data.getD [] = []) ∧
      m.blocksizes = ls.map (fun l => UInt64.ofNat (contentLen l.target)) ∧
      m.filesize.getD 0 = UInt64.ofNat (contentLen (.proto d ls b)) ∧ SizesTrueL ls
def SizesTrueL : List Link → Prop
  | [] => True
  | .mk _ _ n :: ls => SizesTrue n ∧ SizesTrueL ls
end

mutual
/-- Leaves (nodes without links), left to right. -/
def leaves : Node → List Node
  | .raw d b => [.raw d b]
  | .other d => [.other d]
  | .proto d [] b => [.proto d [] b]
  | .proto _ (l :: ls) _ => leavesL (l :: ls)
def leavesL : List Link → List Node
  | [] => []
  | .mk _ _ n :: ls => leaves n ++ leavesL ls
end

mutual
/-- Nodes with links. -/
def internals : Node → List Node
  | .raw _ _ => []
  | .other _ => []
  | .proto _ [] _ => []
  | .proto d (l :: ls) b => internalsL (l :: ls) ++ [.proto d (l :: ls) b]
def internalsL : List Link → List Node
  | [] => []
  | .mk _ _ n :: ls => internals n ++ internalsL ls
end

/-- `Reach n x`: `x` is `n` or reachable from `n` through links. -/
inductive Reach : Node → Node → Prop
  | refl (n : Node) : Reach n n
  | step {n x : Node} {l : Link} (hl : l ∈ n.links) (h : Reach l.target x) : Reach n x

/-- All leaves at depth `d` and every node above with exactly `m` children. -/
def FullAt (m : Nat) : Nat → Node → Prop
  | 0, n => n.links = []
  | d + 1, n => n.links.length = m ∧ ∀ l ∈ n.links, FullAt m d l.target

/-- All leaves at depth `d`, at most `m` children per node, everything left of the last child full. -/
def BalancedAt (m : Nat) : Nat → Node → Prop
  | 0, n => n.links = []
  | d + 1, n => ∃ pre last, n.links = pre ++ [last] ∧ pre.length < m ∧
      (∀ l ∈ pre, FullAt m d l.target) ∧ BalancedAt m d last.target

end Unixfs.Spec
