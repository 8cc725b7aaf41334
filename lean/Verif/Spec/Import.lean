import Verif.Spec.File
import Verif.Import.Helpers

/-! # Specification vocabulary for the importers (C06–C18) -/

namespace Unixfs.Spec
open Unixfs.Import

/-- `db` is the `DagBuilderHelper` a client gets from `DagBuilderParams.New` for a splitter that will
deliver `chunks` and then EOF (`fin = none`) or the error `fin`. `budget = some n`: the DAG service
will refuse to store after `n` nodes; `path` is the absolute path of the input file, if it has one. -/
def Fresh (p : Params) (path : Option Bytes) (chunks : List Bytes) (fin : Option Err) (budget : Option Nat) (db : DB) : Prop :=
  ∃ db0, p.new path chunks fin = .ok db0 ∧ db = { db0 with addBudget := budget }

/-- Every chunk fits the block size limit of 1 MiB. -/
def AllFit (chunks : List Bytes) : Prop := ∀ c ∈ chunks, c.length ≤ 1024 * 1024

/-- The nodes the DAG service was given. -/
def Stored (db : DB) (n : Node) : Prop := ∃ b ∈ db.added, b.node = n

/-- (offset in the input, length) ... of each chunk together with its bytes, starting at `off`. -/
def chunkOffsets : Nat → List Bytes → List (Nat × Bytes)
  | _, [] => []
  | off, c :: cs => (off, c) :: chunkOffsets (off + c.length) cs

/-- Position and bytes of the nodes stored as references into the input file, in storing order. -/
def fileRefs (db : DB) : List (UInt64 × Bytes) :=
  db.added.filterMap (fun b => b.pos.map (fun o => (o, b.node.dataBytes)))

/-- The CID builder of raw leaves: CIDv1, sha2-256, raw by default; otherwise the configured one. -/
def rawBuilder (p : Params) : Builder :=
  match p.cidBuilder with
  | none => ⟨1, 0x55, 0x12, 32⟩
  | some b => b.withCodec 0x55

/-- The CID builder of protobuf nodes. -/
def protoBuilder (p : Params) : Builder :=
  match p.cidBuilder with
  | none => Builder.v0
  | some b => b.withCodec 0x70

/-- `n` is a leaf holding exactly the chunk `c`, of the configured kind. -/
def LeafFor (p : Params) (leafType : UInt32) (n : Node) (c : Bytes) : Prop :=
  if p.rawLeaves then n = .raw c (rawBuilder p)
  else ∃ d m, n = .proto d [] (protoBuilder p) ∧ Pb.Data.unmarshal d = .ok m ∧
    m = { typ := some leafType, data := some c, filesize := some (UInt64.ofNat c.length) }

/-- `n` is an internal file node: a File message without data, with the configured builder. -/
def InternalFor (p : Params) (n : Node) : Prop :=
  ∃ d ls m, n = .proto d ls (protoBuilder p) ∧ Pb.Data.unmarshal d = .ok m ∧ m.typ = some TFile ∧ m.data = none

mutual
/-- Every link is unnamed and records the cumulative size of the node it points to. -/
def LinksTrue : Node → Prop
  | .proto _ ls _ => LinksTrueL ls
  | _ => True
def LinksTrueL : List Link → Prop
  | [] => True
  | .mk name tsize n :: ls => name = [] ∧ tsize = n.size ∧ LinksTrue n ∧ LinksTrueL ls
end

end Unixfs.Spec
