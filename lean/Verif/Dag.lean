import Verif.FSNode

/-!
# Merkle-DAG nodes (go-merkledag v0.5.1) as used by `/repo`

A link embeds the node it points to: the CID of a node is identified with the node. This idealises
the hash function as injective. `Node.other` stands for `ipld.Node` implementations that are neither
`*dag.ProtoNode` nor `*dag.RawNode`.
-/

namespace Unixfs

/-- go-cid `cid.Prefix` used as `cid.Builder`.
Used in importer/helpers/dagbuilder.go:28-60, mod/dagmodifier.go:64-87, io/directory.go:207, hamt/hamt.go:60-90. -/
structure Builder where
  version : Nat
  codec : Nat
  mhType : Nat
  mhLen : Nat
deriving DecidableEq, Repr

namespace Builder

/-- `dag.V0CidPrefix()`: CIDv0, dag-pb, sha2-256. -/
def v0 : Builder := ⟨0, 0x70, 0x12, 32⟩

/-- The raw codec. `cid.Raw`, as in unixfs.go:416-447 and mod/dagmodifier.go:275. -/
def rawCodec : Nat := 0x55

/-- `cid.Prefix.WithCodec`: switching away from dag-pb forces CIDv1.
Dependency go-cid; reached from importer/helpers/dagbuilder.go:149-175 and mod/dagmodifier.go:275. -/
def withCodec (b : Builder) (c : Nat) : Builder :=
  if c = b.codec then b
  else { b with codec := c, version := if c = 0x70 then b.version else 1 }

/-- Length of a CID made by this builder (34 bytes for CIDv0, else version, codec and multihash).
Needed for `productionLinkSize`, io/directory.go:87-89. -/
def cidLen (b : Builder) : Nat :=
  if b.version = 0 then 34
  else 1 + (Pb.encVarint b.codec).length + (Pb.encVarint b.mhType).length
    + (Pb.encVarint b.mhLen).length + b.mhLen

end Builder

mutual
/-- `ipld.Node`. Dependency go-ipld-format; the type switches on it are at unixfs.go:416-447 and 452-465. -/
inductive Node where
  /-- `*dag.ProtoNode`: data, links, CID builder. -/
  | proto (data : Bytes) (links : List Link) (builder : Builder)
  /-- `*dag.RawNode`. -/
  | raw (data : Bytes) (builder : Builder)
  /-- any other implementation, identified by its bytes. -/
  | other (data : Bytes)
/-- `ipld.Link`: name, cumulative size, and the node its CID addresses.
Dependency go-ipld-format; made at hamt/hamt.go:286, io/directory.go:214, importer/helpers/dagbuilder.go:337-345. -/
inductive Link where
  | mk (name : Bytes) (tsize : UInt64) (target : Node)
end

instance : Inhabited Node := ⟨.other []⟩

deriving instance Repr for Link
deriving instance Repr for Node

namespace Link
/-- Field `Name` of `ipld.Link`. -/
def name : Link → Bytes | mk n _ _ => n
/-- Field `Size` of `ipld.Link`. -/
def tsize : Link → UInt64 | mk _ s _ => s
/-- Field `Cid` of `ipld.Link`, as the node it addresses. -/
def target : Link → Node | mk _ _ t => t
end Link

namespace Node

/-- `node.Links()`, as at io/dagreader.go:396 and mod/dagmodifier.go:255. -/
def links : Node → List Link
  | proto _ ls _ => ls
  | _ => []

/-- `RawData`/`Data` payload bytes. As used at unixfs.go:416-447. -/
def dataBytes : Node → Bytes
  | proto d _ _ => d
  | raw d _ => d
  | other d => d

/-- The type assertion to `*ProtoNode`, as at io/directory.go:157. -/
def isProto : Node → Bool
  | proto .. => true
  | _ => false

/-- The type assertion to `*RawNode`, as at unixfs.go:444. -/
def isRaw : Node → Bool
  | raw .. => true
  | _ => false

/-- Length of the CID of a node. Needed for `productionLinkSize`, io/directory.go:87-89. -/
def cidLen : Node → Nat
  | proto _ _ b => b.cidLen
  | raw _ b => b.cidLen
  | other _ => 36

/-- Length of one length-delimited dag-pb field. Dependency go-merkledag (encoding). -/
def lenField (n : Nat) : Nat := 1 + (Pb.encVarint n).length + n

/-- Encoded length of a dag-pb link (`Hash`, `Name`, `Tsize`). Dependency go-merkledag (encoding). -/
def linkLen (l : Link) : Nat :=
  lenField (lenField l.target.cidLen + lenField l.name.length + (1 + (Pb.encVarint l.tsize.toNat).length))

/-- Encoded length of a node (go-merkledag coding.go `EncodeProtobuf`). -/
def blockLen : Node → Nat
  | proto d ls _ => (ls.map linkLen).sum + (if d.isEmpty then 0 else lenField d.length)
  | raw d _ => d.length
  | other d => d.length

/-- `ipld.Node.Size()`: the block plus the `Tsize` of its links.
Dependency go-merkledag; used by `MakeLink`. -/
def size (n : Node) : UInt64 :=
  UInt64.ofNat n.blockLen + (n.links.map Link.tsize).sum

end Node

/-- `ipld.MakeLink`: name left empty, size from `Size()`.
Used at hamt/hamt.go:286, 362, io/directory.go:214 and by `AddNodeLink` at importer/helpers/dagbuilder.go:338. -/
def makeLink (name : Bytes) (n : Node) : Link := .mk name n.size n

/-- unixfs.go:416-446 `ReadUnixFSNodeData`. -/
def readUnixFSNodeData (n : Node) : Except Err Bytes :=
  match n with
  | .proto d _ _ =>
    match FSNode.fromBytes d with
    | .error _ => .error .incorrectlyFormatted
    | .ok fs => if fs.type = TFile ∨ fs.type = TRaw then .ok fs.data else .error .unexpectedPlace
  | .raw d _ => .ok d
  | .other _ => .error .unrecognizedType

/-- unixfs.go:452-464 `ExtractFSNode`. -/
def extractFSNode (n : Node) : Except Err FSNode :=
  match n with
  | .proto d _ _ => FSNode.fromBytes d
  | _ => .error .notProtobuf

/-- unixfs.go:400-402 `EmptyDirNode`. -/
def emptyDirNode : Node := .proto folderPBData [] .v0

/-- unixfs.go:407-409 `EmptyFileNode`. -/
def emptyFileNode : Node := .proto (filePBData none 0) [] .v0

/-! ### Decidable equality of nodes (equality of CIDs) -/

mutual
/-- Decidable equality; not in /repo. -/
def Node.beq : Node → Node → Bool
  | .proto d ls b, .proto d' ls' b' => d == d' && Link.beqList ls ls' && b == b'
  | .raw d b, .raw d' b' => d == d' && b == b'
  | .other d, .other d' => d == d'
  | _, _ => false
/-- Decidable equality; not in /repo. -/
def Link.beq : Link → Link → Bool
  | .mk n s t, .mk n' s' t' => n == n' && s == s' && Node.beq t t'
/-- Decidable equality; not in /repo. -/
def Link.beqList : List Link → List Link → Bool
  | [], [] => true
  | l :: r, l' :: r' => Link.beq l l' && Link.beqList r r'
  | _, _ => false
end

mutual
theorem Node.beq_iff : ∀ (a b : Node), Node.beq a b = true ↔ a = b
  | .proto d ls b, .proto d' ls' b' => by
      simp [Node.beq, Link.beqList_iff ls ls', and_assoc]
  | .raw d b, .raw d' b' => by simp [Node.beq]
  | .other d, .other d' => by simp [Node.beq]
  | .proto .., .raw .. => by simp [Node.beq]
  | .proto .., .other .. => by simp [Node.beq]
  | .raw .., .proto .. => by simp [Node.beq]
  | .raw .., .other .. => by simp [Node.beq]
  | .other .., .proto .. => by simp [Node.beq]
  | .other .., .raw .. => by simp [Node.beq]
theorem Link.beq_iff : ∀ (a b : Link), Link.beq a b = true ↔ a = b
  | .mk n s t, .mk n' s' t' => by simp [Link.beq, Node.beq_iff t t', and_assoc]
theorem Link.beqList_iff : ∀ (a b : List Link), Link.beqList a b = true ↔ a = b
  | [], [] => by simp [Link.beqList]
  | l :: r, l' :: r' => by simp [Link.beqList, Link.beq_iff l l', Link.beqList_iff r r']
  | [], _ :: _ => by simp [Link.beqList]
  | _ :: _, [] => by simp [Link.beqList]
end

instance : DecidableEq Node := fun a b => decidable_of_iff _ (Node.beq_iff a b)
instance : DecidableEq Link := fun a b => decidable_of_iff _ (Link.beq_iff a b)

end Unixfs
