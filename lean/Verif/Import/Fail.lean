import Verif.Import.Trickle

/-!
# What a failed `Append` leaves behind

`Verif.Import.Helpers` and `Verif.Import.Trickle` drop the state when an error is returned. The functions
of this file are the same functions, followed to the point of failure: they return the result and, in
either case, the node as changed in place so far and the builder (with the nodes stored so far). That they
agree with the functions of those files is proved in `Verif.Import.FailLemmas`.
-/

namespace Unixfs.Import

/-- importer/helpers/dagbuilder.go:126-134 `Next`. The data is dropped also when the error is returned. -/
def DB.nextF (db : DB) : Except Err (Option Bytes) × DB :=
  let db := db.prepareNext
  match db.recvdErr with
  | some e => (.error e, { db with nextData := none })
  | none => (.ok db.nextData, { db with nextData := none })

/-- importer/helpers/dagbuilder.go:210-227 `NewLeafDataNode`. -/
def DB.newLeafDataNodeF (db : DB) (t : UInt32) : Except Err (Built × UInt64) × DB :=
  match db.nextF with
  | (.error e, db) => (.error e, db)
  | (.ok d, db) =>
    match db.newLeafNode d t with
    | .error e => (.error e, db)
    | .ok n =>
      let dataSize := UInt64.ofNat (d.getD []).length
      let (b, db) := db.processFileStore n dataSize
      (.ok (b, dataSize), db)

/-- importer/helpers/dagbuilder.go:337-346 `AddChild`: the link and the block size are there before the
child is stored. -/
def FSN.addChildF (n : FSN) (child : Built) (fileSize : UInt64) (db : DB) : Except Err Unit × FSN × DB :=
  let n' : FSN := { n with links := n.links ++ [makeLink [] child.node], file := n.file.addBlockSize fileSize }
  match db.add child with
  | .error e => (.error e, n', db)
  | .ok db => (.ok (), n', db)

/-- importer/helpers/dagbuilder.go:187-196: the loop of `FillNodeLayer`. -/
def DB.fillLayerLoopF : Nat → FSN → DB → Except Err Unit × FSN × DB
  | 0, node, db => (.ok (), node, db)
  | k + 1, node, db =>
    match db.done with
    | (true, db) => (.ok (), node, db)
    | (false, db) =>
      match db.newLeafDataNodeF TRaw with
      | (.error e, db) => (.error e, node, db)
      | (.ok (child, size), db) =>
        match node.addChildF child size db with
        | (.error e, node, db) => (.error e, node, db)
        | (.ok (), node, db) => fillLayerLoopF k node db

/-- importer/helpers/dagbuilder.go:184-201 `FillNodeLayer`. -/
def DB.fillNodeLayerF (node : FSN) (db : DB) : Except Err Unit × FSN × DB :=
  match DB.fillLayerLoopF (db.maxlinks - node.numChildren) node db with
  | (.error e, node, db) => (.error e, node, db)
  | (.ok (), node, db) =>
    match node.commit with
    | .error e => (.error e, node, db)
    | .ok (_, node) => (.ok (), node, db)

namespace Trickle

/-- The repeat loops, importer/trickle/trickledag.go:69-79, 137-147, 189-199, 238-248. -/
def repeatLoopF (sub : DB → Except Err (Node × UInt64) × DB) : Nat → FSN → DB → Except Err Unit × FSN × DB
  | 0, node, db => (.ok (), node, db)
  | k + 1, node, db =>
    match db.done with
    | (true, db) => (.ok (), node, db)
    | (false, db) =>
      match sub db with
      | (.error e, db) => (.error e, node, db)
      | (.ok (c, size), db) =>
        match node.addChildF ⟨c, none⟩ size db with
        | (.error e, node, db) => (.error e, node, db)
        | (.ok (), node, db) => repeatLoopF sub k node db

/-- `Commit` followed by `FileSize`, importer/trickle/trickledag.go:83-88. -/
def finishF (node : FSN) (db : DB) : Except Err (Node × UInt64) × DB :=
  match node.commit with
  | .error e => (.error e, db)
  | .ok (n, node) => (.ok (n, node.fileSize), db)

/-- importer/trickle/trickledag.go:62-80: the loop of `fillTrickleRec` (unfolded as in `layers`). -/
def layersF : Nat → FSN → DB → Except Err Unit × FSN × DB
  | 0, node, db => (.ok (), node, db)
  | d + 1, node, db =>
    match layersF d node db with
    | (.error e, node, db) => (.error e, node, db)
    | (.ok (), node, db) =>
      if d = 0 then (.ok (), node, db)
      else match db.done with
        | (true, db) => (.ok (), node, db)
        | (false, db) =>
          repeatLoopF
            (fun db =>
              match DB.fillNodeLayerF (FSN.new db TFile) db with
              | (.error e, _, db) => (.error e, db)
              | (.ok (), sub, db) =>
                match layersF d sub db with
                | (.error e, _, db) => (.error e, db)
                | (.ok (), sub, db) => finishF sub db)
            depthRepeat node db

/-- importer/trickle/trickledag.go:54-89 `fillTrickleRec` on a new node. -/
def subTrickleF (i : Nat) (db : DB) : Except Err (Node × UInt64) × DB :=
  match DB.fillNodeLayerF (FSN.new db TFile) db with
  | (.error e, _, db) => (.error e, db)
  | (.ok (), node, db) =>
    match layersF i node db with
    | (.error e, _, db) => (.error e, db)
    | (.ok (), node, db) => finishF node db

/-- The loops over increasing depth, importer/trickle/trickledag.go:136-148. -/
def growLoopF : Nat → Nat → FSN → DB → Except Err Unit × FSN × DB
  | 0, _, node, db =>
    match db.done with
    | (true, db) => (.ok (), node, db)
    | (false, db) => (.error .outOfFuel, node, db)
  | fuel + 1, i, node, db =>
    match db.done with
    | (true, db) => (.ok (), node, db)
    | (false, db) =>
      match repeatLoopF (subTrickleF i) depthRepeat node db with
      | (.error e, node, db) => (.error e, node, db)
      | (.ok (), node, db) => growLoopF fuel (i + 1) node db

/-- importer/trickle/trickledag.go:237-249. -/
def boundedGrowF : Nat → Nat → FSN → DB → Except Err Unit × FSN × DB
  | 0, _, node, db => (.ok (), node, db)
  | k + 1, i, node, db =>
    match db.done with
    | (true, db) => (.ok (), node, db)
    | (false, db) =>
      match repeatLoopF (subTrickleF i) depthRepeat node db with
      | (.error e, node, db) => (.error e, node, db)
      | (.ok (), node, db) => boundedGrowF k (i + 1) node db

/-- importer/trickle/trickledag.go:156-203 `appendFillLastChild`. The last child is a node of its own,
fetched by `GetChild`: the node itself changes with `RemoveChild` first. -/
def appendFillLastChildF (rec : FSN → DB → Int → Except Err (FSN × UInt64) × DB)
    (fsn : FSN) (depth repeatNumber : Nat) (db : DB) : Except Err Unit × FSN × DB :=
  if fsn.numChildren ≤ db.maxlinks then (.ok (), fsn, db)
  else
    let last := fsn.numChildren - 1
    match fsn.getChild last db.canGet with
    | .error e => (.error e, fsn, db)
    | .ok lastChild =>
      match rec lastChild db ((depth : Int) - 1) with
      | (.error e, db) => (.error e, fsn, db)
      | (.ok (newChild, nchildSize), db) =>
        match fsn.removeChild last with
        | .error e => (.error e, fsn, db)
        | .ok fsn =>
          match newChild.commit with
          | .error e => (.error e, fsn, db)
          | .ok (filledNode, _) =>
            match fsn.addChildF ⟨filledNode, none⟩ nchildSize db with
            | (.error e, fsn, db) => (.error e, fsn, db)
            | (.ok (), fsn, db) =>
              if repeatNumber ≠ 0 then
                repeatLoopF (subTrickleF depth) (depthRepeat - repeatNumber) fsn db
              else (.ok (), fsn, db)

/-- importer/trickle/trickledag.go:212-219: the first part of `appendRec`. -/
def appendDirectF (fsn : FSN) (db : DB) : Except Err Nat × FSN × DB :=
  if (depthInfo fsn db.maxlinks).1 = 0 then
    match DB.fillNodeLayerF fsn db with
    | (.error e, fsn, db) => (.error e, fsn, db)
    | (.ok (), fsn, db) => (.ok 1, fsn, db)
  else (.ok (depthInfo fsn db.maxlinks).1, fsn, db)

/-- importer/trickle/trickledag.go:206-252 `appendRec`. -/
def appendRecF : Nat → FSN → DB → Int → Except Err (FSN × UInt64) × DB
  | 0, _, db, _ => (.error .outOfFuel, db)
  | fuel + 1, fsn, db, maxDepth =>
    if maxDepth = 0 then (.ok (fsn, fsn.fileSize), db)
    else match db.done with
    | (true, db) => (.ok (fsn, fsn.fileSize), db)
    | (false, db) =>
      let repeatNumber := (depthInfo fsn db.maxlinks).2
      match appendDirectF fsn db with
      | (.error e, _, db) => (.error e, db)
      | (.ok depth, fsn, db) =>
        if (depth : Int) = maxDepth then (.ok (fsn, fsn.fileSize), db)
        else match appendFillLastChildF (appendRecF fuel) fsn depth repeatNumber db with
          | (.error e, _, db) => (.error e, db)
          | (.ok (), fsn, db) =>
            let dn := db.done
            let depth := if dn.1 then depth else depth + 1
            match boundedGrowF (maxDepth - depth).toNat depth fsn dn.2 with
            | (.error e, _, db) => (.error e, db)
            | (.ok (), fsn, db) => (.ok (fsn, fsn.fileSize), db)

/-- importer/trickle/trickledag.go:125-153: the part of `Append` after the direct blocks. -/
def appendRestF (fuel h : Nat) (fsn : FSN) (depth repeatNumber : Nat) (db : DB) : Except Err Unit × FSN × DB :=
  match appendFillLastChildF (appendRecF h) fsn (depth - 1) repeatNumber db with
  | (.error e, fsn, db) => (.error e, fsn, db)
  | (.ok (), fsn, db) =>
    let dn := db.done
    let depth := if dn.1 then depth else depth + 1
    match growLoopF fuel depth fsn dn.2 with
    | (.error e, fsn, db) => (.error e, fsn, db)
    | (.ok (), fsn, db) =>
      match fsn.commit with
      | .error e => (.error e, fsn, db)
      | .ok (_, fsn) => (.ok (), fsn, db)

/-- importer/trickle/trickledag.go:94-154 `Append`: the result, and the node `base` as the call leaves it
(`base` is changed in place; on success it is the node that is returned). -/
def appendF (fuel h : Nat) (base : Node) (db : DB) : Except Err Unit × Node × DB :=
  match base with
  | .proto d ls b =>
    match FSN.fromDag d ls b with
    | .error e => (.error e, .proto d ls b, db)
    | .ok fsn =>
      let info := depthInfo fsn db.maxlinks
      if info.1 = 0 then
        match DB.fillNodeLayerF fsn db with
        | (.error e, fsn, db) => (.error e, fsn.getDagNode, db)
        | (.ok (), fsn, db) =>
          match db.done with
          | (true, db) => (.ok (), fsn.getDagNode, db)
          | (false, db) =>
            match appendRestF fuel h fsn 1 info.2 db with
            | (r, fsn, db) => (r, fsn.getDagNode, db)
      else
        match appendRestF fuel h fsn info.1 info.2 db with
        | (r, fsn, db) => (r, fsn.getDagNode, db)
  | n => (.error .notProtobuf, n, db)

end Trickle
end Unixfs.Import
