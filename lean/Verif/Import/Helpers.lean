import Verif.Dag

/-!
# `/repo/importer/helpers`: `DagBuilderHelper` and `FSNodeOverDag`

State is passed explicitly: a Go method `func (db *DagBuilderHelper) f(x) (y, error)` becomes
`f : ... → DB → Except Err (Y × DB)`. When an error is returned the final state is not modelled.
-/

namespace Unixfs.Import

/-- importer/helpers/helpers.go:10 `BlockSizeLimit`. -/
def blockSizeLimit : Nat := 1048576

/-- importer/helpers/helpers.go:32 `DefaultLinksPerBlock`. -/
def defaultLinksPerBlock : Nat := 2 ^ 13 / (34 + 8 + 5)

/-- A node handed to the DAG service. `pos` is the filestore position
(`pi.FilestoreNode{PosInfo.Offset}`, dagbuilder.go:243-250) when the node was wrapped as such. -/
structure Built where
  node : Node
  pos : Option UInt64 := none
deriving Repr, DecidableEq

/-- dagbuilder.go:28-50 `type DagBuilderHelper struct`.

Simplifications: `maxlinks` is a natural number (a negative value behaves as 0 in the code); the
splitter is the list `src` of the chunks it will return, followed by EOF (`srcEnd = none`) or by an
error; the DAG service is the list of nodes added so far (`added`), the number of further `Add`
calls that will succeed (`addBudget`, `none` = all) and the predicate `canGet` telling which nodes
can be fetched; `hasPath` says whether `fullPath` is non-empty. -/
structure DB where
  maxlinks : Nat
  rawLeaves : Bool := false
  cidBuilder : Option Builder := none
  hasPath : Bool := false
  src : List Bytes
  srcEnd : Option Err := none
  nextData : Option Bytes := none
  recvdErr : Option Err := none
  offset : UInt64 := 0
  added : List Built := []
  addBudget : Option Nat := none
  canGet : Node → Bool := fun _ => true

/-- dagbuilder.go:56-73 `type DagBuilderParams struct` (the DAG service is part of `DB`). -/
structure Params where
  maxlinks : Nat
  rawLeaves : Bool := false
  cidBuilder : Option Builder := none
  noCopy : Bool := false

/-- dagbuilder.go:77-95 `DagBuilderParams.New`. `filePath`: the splitter's reader is a
`files.FileInfo` with this absolute path. -/
def Params.new (p : Params) (filePath : Option Bytes) (src : List Bytes) (srcEnd : Option Err) :
    Except Err DB :=
  let fullPath := if p.noCopy then filePath.getD [] else []
  if p.noCopy && fullPath.isEmpty then .error .missingFsRef
  else .ok { maxlinks := p.maxlinks, rawLeaves := p.rawLeaves, cidBuilder := p.cidBuilder,
             hasPath := !fullPath.isEmpty, src := src, srcEnd := srcEnd }

namespace DB

/-- dagbuilder.go:100-110 `prepareNext`. `Splitter.NextBytes` returns the next chunk, or `(nil, EOF)`
or `(nil, err)` once the chunks are used up. -/
def prepareNext (db : DB) : DB :=
  if db.nextData.isSome || db.recvdErr.isSome then db
  else match db.src with
    | c :: cs => { db with nextData := some c, src := cs }
    | [] => { db with nextData := none, recvdErr := db.srcEnd }

/-- dagbuilder.go:113-121 `Done`. -/
def done (db : DB) : Bool × DB :=
  let db := db.prepareNext
  if db.recvdErr.isSome then (false, db) else (db.nextData.isNone, db)

/-- dagbuilder.go:126-134 `Next`; `none` is a nil slice. -/
def next (db : DB) : Except Err (Option Bytes × DB) :=
  let db := db.prepareNext
  let d := db.nextData
  let db := { db with nextData := none }
  match db.recvdErr with
  | some e => .error e
  | none => .ok (d, db)

/-- dagbuilder.go:264-266 `Add`. -/
def add (db : DB) (b : Built) : Except Err DB :=
  match db.addBudget with
  | none => .ok { db with added := db.added ++ [b] }
  | some 0 => .error .addFailed
  | some (k + 1) => .ok { db with added := db.added ++ [b], addBudget := some k }

/-- The CID builder of protobuf nodes: go-merkledag `ProtoNode.SetCidBuilder` (nil = CIDv0).
importer/helpers/dagbuilder.go:302-308. -/
def pbBuilder (db : DB) : Builder := (db.cidBuilder.getD .v0).withCodec 0x70

end DB

/-- dagbuilder.go:293-296 `type FSNodeOverDag struct`: the links, data and builder of `dag`, and `file`. -/
structure FSN where
  links : List Link
  dagData : Bytes
  builder : Builder
  file : FSNode

namespace FSN

/-- dagbuilder.go:302-310 `NewFSNodeOverDag`. -/
def new (db : DB) (t : UInt32) : FSN := ⟨[], [], db.pbBuilder, FSNode.new t⟩

/-- dagbuilder.go:320-330 `NewFSNFromDag` (its argument is a `*dag.ProtoNode`). -/
def fromDag (data : Bytes) (links : List Link) (b : Builder) : Except Err FSN :=
  match FSNode.fromBytes data with
  | .error e => .error e
  | .ok f => .ok ⟨links, data, b, f⟩

/-- dagbuilder.go:337-346 `AddChild`. -/
def addChild (n : FSN) (child : Built) (fileSize : UInt64) (db : DB) : Except Err (FSN × DB) :=
  let n' : FSN := { n with links := n.links ++ [makeLink [] child.node], file := n.file.addBlockSize fileSize }
  match db.add child with
  | .error e => .error e
  | .ok db => .ok (n', db)

/-- dagbuilder.go:349-352 `RemoveChild`. -/
def removeChild (n : FSN) (i : Nat) : Except Err FSN :=
  match n.file.removeBlockSize i with
  | .error e => .error e
  | .ok f => if i < n.links.length
      then .ok { n with file := f, links := n.links.take i ++ n.links.drop (i + 1) }
      else .error .panic

/-- dagbuilder.go:391-393 `GetDagNode`: the node as last committed. -/
def getDagNode (n : FSN) : Node := .proto n.dagData n.links n.builder

/-- dagbuilder.go:359-367 `Commit`. -/
def commit (n : FSN) : Except Err (Node × FSN) :=
  match n.file.getBytes with
  | .error e => .error e
  | .ok b =>
    let n' := { n with dagData := b }
    .ok (n'.getDagNode, n')

/-- dagbuilder.go:370-378. -/
def numChildren (n : FSN) : Nat := n.file.numChildren
/-- importer/helpers/dagbuilder.go:376-378 `FileSize`. -/
def fileSize (n : FSN) : UInt64 := n.file.fileSize

/-- dagbuilder.go:383-385 `SetFileData`. -/
def setFileData (n : FSN) (d : Option Bytes) : FSN := { n with file := n.file.setData d }

/-- dagbuilder.go:396-408 `GetChild`. -/
def getChild (n : FSN) (i : Nat) (canGet : Node → Bool) : Except Err FSN :=
  match n.links[i]? with
  | none => .error .panic
  | some l =>
    if canGet l.target then
      match l.target with
      | .proto d ls b => fromDag d ls b
      | _ => .error .notProtobuf
    else .error .notFound

end FSN

namespace DB

/-- `dag.NewRawNode` / `dag.NewRawNodeWPrefix` (dagbuilder.go:154-164). -/
def rawNode (db : DB) (d : Bytes) : Node :=
  match db.cidBuilder with
  | none => .raw d ⟨1, Builder.rawCodec, 0x12, 32⟩
  | some b => .raw d (b.withCodec Builder.rawCodec)

/-- dagbuilder.go:149-178 `NewLeafNode`. -/
def newLeafNode (db : DB) (data : Option Bytes) (t : UInt32) : Except Err Node :=
  if (data.getD []).length > blockSizeLimit then .error .sizeLimitExceeded
  else if db.rawLeaves then .ok (db.rawNode (data.getD []))
  else
    match ((FSN.new db t).setFileData data).commit with
    | .error e => .error e
    | .ok (n, _) => .ok n

/-- dagbuilder.go:237-261 `ProcessFileStore`. -/
def processFileStore (db : DB) (n : Node) (dataSize : UInt64) : Built × DB :=
  if db.hasPath && n.isRaw then (⟨n, some db.offset⟩, { db with offset := db.offset + dataSize })
  else (⟨n, none⟩, db)

/-- dagbuilder.go:210-227 `NewLeafDataNode`. -/
def newLeafDataNode (db : DB) (t : UInt32) : Except Err ((Built × UInt64) × DB) :=
  match db.next with
  | .error e => .error e
  | .ok (d, db) =>
    let dataSize := UInt64.ofNat (d.getD []).length
    match db.newLeafNode d t with
    | .error e => .error e
    | .ok n =>
      let (b, db) := db.processFileStore n dataSize
      .ok ((b, dataSize), db)

/-- The loop dagbuilder.go:187-196 of `FillNodeLayer`. `k` = `maxlinks - NumChildren` at entry: each
iteration adds exactly one child, so this is the number of iterations the loop test allows. -/
def fillLayerLoop : Nat → FSN → DB → Except Err (FSN × DB)
  | 0, node, db => .ok (node, db)
  | k + 1, node, db =>
    match db.done with
    | (true, db) => .ok (node, db)
    | (false, db) =>
      match db.newLeafDataNode TRaw with
      | .error e => .error e
      | .ok ((child, size), db) =>
        match node.addChild child size db with
        | .error e => .error e
        | .ok (node, db) => fillLayerLoop k node db

/-- dagbuilder.go:184-201 `FillNodeLayer`. -/
def fillNodeLayer (node : FSN) (db : DB) : Except Err (FSN × DB) :=
  match fillLayerLoop (db.maxlinks - node.numChildren) node db with
  | .error e => .error e
  | .ok (node, db) =>
    match node.commit with
    | .error e => .error e
    | .ok (_, node) => .ok (node, db)

end DB

end Unixfs.Import
