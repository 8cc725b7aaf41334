import Verif.Spec.File
import Verif.FSNode
import Verif.Mod.DagModifier

/-!
# Files whose recorded sizes promise more than there is

The definitions in this file belong to statements; they model no code.
-/

namespace Unixfs.Spec
open Unixfs Unixfs.Mod

/-- No node of the DAG records more block sizes than it has links. -/
def Covered (n : Node) : Prop := ∀ d ls b, Reach n (.proto d ls b) → ∀ p, Pb.Data.unmarshal d = .ok p → p.blocksizes.length ≤ ls.length

/-- The file size that a node records: its length for a raw node, the `filesize` field of a file or raw
node, the length of the target of a symbolic link, and 0 for anything else. -/
def recorded : Node → Nat
  | .raw d _ => d.length
  | .other _ => 0
  | .proto d _ _ =>
    match Pb.Data.unmarshal d with
    | .error _ => 0
    | .ok p =>
      if p.typ = some TFile ∨ p.typ = some TRaw then (p.filesize.getD 0).toNat
      else if p.typ = some TSymlink then (p.data.getD []).length else 0

/-- The recorded sizes of the targets, added up. -/
def recordedSum (ls : List Link) : Nat := (ls.map (fun l => recorded l.target)).sum

/-- A node keeps what its sizes promise: it has a link for every block size; no block size exceeds the
size recorded in the child; and its own recorded size does not exceed its data (a leaf) or the sizes
recorded in its children (any other node), which 64 bits can count. -/
def Keeps : Node → Prop
  | .proto d ls b => ∀ p, Pb.Data.unmarshal d = .ok p →
      p.blocksizes.length ≤ ls.length ∧
      (∀ (i : Nat) s l, p.blocksizes[i]? = some s → ls[i]? = some l → s.toNat ≤ recorded l.target) ∧
      (ls = [] → recorded (.proto d ls b) ≤ (p.data.getD []).length) ∧
      (ls ≠ [] → recorded (.proto d ls b) ≤ recordedSum ls) ∧ recordedSum ls < 2 ^ 64
  | _ => True

/-- All nodes of the DAG keep what their sizes promise. They may still promise too little, have the
wrong types, or be no UnixFS nodes. -/
def Backed (n : Node) : Prop := ∀ x, Reach n x → Keeps x

/-- No node that has links carries data of its own. -/
def Bare (n : Node) : Prop := ∀ d ls b, Reach n (.proto d ls b) → ∀ p, Pb.Data.unmarshal d = .ok p → ls ≠ [] → p.data.getD [] = []

/-- Calls that only shorten a file of at least `m` bytes and read it: no `Truncate` goes beyond the size of the one
before, and no `Seek` either. -/
def Shortening : (m : Nat) → List MOp → Prop
  | _, [] => True
  | m, .truncate s :: ops => 0 ≤ s.toInt ∧ s.toInt ≤ m ∧ Shortening s.toInt.toNat ops
  | m, .seek off wh :: ops => wh = 0 ∧ 0 ≤ off.toInt ∧ off.toInt ≤ m ∧ Shortening m ops
  | _, .write _ :: _ => False
  | _, .writeAt _ _ :: _ => False
  | m, _ :: ops => Shortening m ops

end Unixfs.Spec
