import Verif.Import.Helpers

/-! # `/repo/importer/trickle/trickledag.go` -/

namespace Unixfs.Import.Trickle

/-- trickledag.go:34 `depthRepeat`. -/
def depthRepeat : Nat := 4

/-- The repeat loops (trickledag.go:69-79, 137-147, 189-199, 238-248): while fewer than the wanted
number of sub-graphs were added and there is data, build a sub-graph with `sub` and add it. -/
def repeatLoop (sub : DB → Except Err ((Node × UInt64) × DB)) : Nat → FSN → DB → Except Err (FSN × DB)
  | 0, node, db => .ok (node, db)
  | k + 1, node, db =>
    match db.done with
    | (true, db) => .ok (node, db)
    | (false, db) =>
      match sub db with
      | .error e => .error e
      | .ok ((c, size), db) =>
        match node.addChild ⟨c, none⟩ size db with
        | .error e => .error e
        | .ok (node, db) => repeatLoop sub k node db

/-- `Commit` followed by `FileSize` (trickledag.go:83-88). -/
def finish (node : FSN) (db : DB) : Except Err ((Node × UInt64) × DB) :=
  match node.commit with
  | .error e => .error e
  | .ok (n, node) => .ok ((n, node.fileSize), db)

/-- The loop trickledag.go:62-80 for `depth` in `[1, maxDepth)`, as a function of `maxDepth`. The
last round of the loop for `maxDepth + 1` is `depth = maxDepth`, whose sub-graphs are built by
`fillTrickleRec` with `maxDepth` (unfolded here to keep the recursion structural; equation
`fillTrickle_layers` in `Verif.Import.TrickleLemmas` states the Go recursion). -/
def layers : Nat → FSN → DB → Except Err (FSN × DB)
  | 0, node, db => .ok (node, db)
  | d + 1, node, db =>
    match layers d node db with
    | .error e => .error e
    | .ok (node, db) =>
      if d = 0 then .ok (node, db)
      else match db.done with
        | (true, db) => .ok (node, db)
        | (false, db) =>
          repeatLoop
            (fun db =>
              match DB.fillNodeLayer (FSN.new db TFile) db with
              | .error e => .error e
              | .ok (sub, db) =>
                match layers d sub db with
                | .error e => .error e
                | .ok (sub, db) => finish sub db)
            depthRepeat node db

/-- trickledag.go:54-89 `fillTrickleRec` with a `maxDepth ≥ 0`. -/
def fillTrickle (maxDepth : Nat) (node : FSN) (db : DB) : Except Err ((Node × UInt64) × DB) :=
  match DB.fillNodeLayer node db with
  | .error e => .error e
  | .ok (node, db) =>
    match layers maxDepth node db with
    | .error e => .error e
    | .ok (node, db) => finish node db

/-- A sub-graph of depth `i`: `fillTrickleRec(db, db.NewFSNodeOverDag(ft.TFile), i)`.
importer/trickle/trickledag.go:71-78. -/
def subTrickle (i : Nat) (db : DB) : Except Err ((Node × UInt64) × DB) :=
  fillTrickle i (FSN.new db TFile) db

/-- The unbounded loops over increasing depth (trickledag.go:62-80 with `maxDepth = -1`, and
136-148): `fuel` bounds the number of depths tried. -/
def growLoop : Nat → Nat → FSN → DB → Except Err (FSN × DB)
  | 0, _, node, db =>
    match db.done with
    | (true, db) => .ok (node, db)
    | (false, _) => .error .outOfFuel
  | fuel + 1, i, node, db =>
    match db.done with
    | (true, db) => .ok (node, db)
    | (false, db) =>
      match repeatLoop (subTrickle i) depthRepeat node db with
      | .error e => .error e
      | .ok (node, db) => growLoop fuel (i + 1) node db

/-- trickledag.go:41-49 `Layout` (with `fillTrickleRec(db, newRoot, -1)`). -/
def layout (fuel : Nat) (db : DB) : Except Err (Node × DB) :=
  match DB.fillNodeLayer (FSN.new db TFile) db with
  | .error e => .error e
  | .ok (node, db) =>
    match growLoop fuel 1 node db with
    | .error e => .error e
    | .ok (node, db) =>
      match finish node db with
      | .error e => .error e
      | .ok ((root, _), db) =>
        match db.add ⟨root, none⟩ with
        | .error e => .error e
        | .ok db => .ok (root, db)

/-! ## Append -/

/-- trickledag.go:257-280 `trickleDepthInfo`. -/
def depthInfo (node : FSN) (maxlinks : Nat) : Nat × Nat :=
  let n := node.numChildren
  if n < maxlinks then (0, 0)
  else ((n - maxlinks) / depthRepeat + 1, (n - maxlinks) % depthRepeat)

/-- The loop trickledag.go:237-249: depths `i, i+1, …` below the bound, `k` = number of depths. -/
def boundedGrow : Nat → Nat → FSN → DB → Except Err (FSN × DB)
  | 0, _, node, db => .ok (node, db)
  | k + 1, i, node, db =>
    match db.done with
    | (true, db) => .ok (node, db)
    | (false, db) =>
      match repeatLoop (subTrickle i) depthRepeat node db with
      | .error e => .error e
      | .ok (node, db) => boundedGrow k (i + 1) node db

/-- trickledag.go:156-203 `appendFillLastChild`; `rec` is `appendRec`. -/
def appendFillLastChild (rec : FSN → DB → Int → Except Err ((FSN × UInt64) × DB))
    (fsn : FSN) (depth repeatNumber : Nat) (db : DB) : Except Err (FSN × DB) :=
  if fsn.numChildren ≤ db.maxlinks then .ok (fsn, db)
  else
    let last := fsn.numChildren - 1
    match fsn.getChild last db.canGet with
    | .error e => .error e
    | .ok lastChild =>
      match rec lastChild db ((depth : Int) - 1) with
      | .error e => .error e
      | .ok ((newChild, nchildSize), db) =>
        match fsn.removeChild last with
        | .error e => .error e
        | .ok fsn =>
          match newChild.commit with
          | .error e => .error e
          | .ok (filledNode, _) =>
            match fsn.addChild ⟨filledNode, none⟩ nchildSize db with
            | .error e => .error e
            | .ok (fsn, db) =>
              if repeatNumber ≠ 0 then
                repeatLoop (subTrickle depth) (depthRepeat - repeatNumber) fsn db
              else .ok (fsn, db)

/-- trickledag.go:212-219: the first part of `appendRec`, filling the direct blocks. -/
def appendDirect (fsn : FSN) (db : DB) : Except Err ((FSN × Nat) × DB) :=
  if (depthInfo fsn db.maxlinks).1 = 0 then
    match DB.fillNodeLayer fsn db with
    | .error e => .error e
    | .ok (fsn, db) => .ok ((fsn, 1), db)
  else .ok ((fsn, (depthInfo fsn db.maxlinks).1), db)

/-- trickledag.go:206-252 `appendRec`. `fuel` bounds the recursion into last children (the height of
the DAG is enough). -/
def appendRec : Nat → FSN → DB → Int → Except Err ((FSN × UInt64) × DB)
  | 0, _, _, _ => .error .outOfFuel
  | fuel + 1, fsn, db, maxDepth =>
    if maxDepth = 0 then .ok ((fsn, fsn.fileSize), db)
    else match db.done with
    | (true, db) => .ok ((fsn, fsn.fileSize), db)
    | (false, db) =>
      let repeatNumber := (depthInfo fsn db.maxlinks).2
      match appendDirect fsn db with
      | .error e => .error e
      | .ok ((fsn, depth), db) =>
        if (depth : Int) = maxDepth then .ok ((fsn, fsn.fileSize), db)
        else match appendFillLastChild (appendRec fuel) fsn depth repeatNumber db with
          | .error e => .error e
          | .ok (fsn, db) =>
            let dn := db.done
            let depth := if dn.1 then depth else depth + 1
            match boundedGrow (maxDepth - depth).toNat depth fsn dn.2 with
            | .error e => .error e
            | .ok (fsn, db) => .ok ((fsn, fsn.fileSize), db)

/-- trickledag.go:125-153: the part of `Append` after the direct blocks; `depth ≥ 1`. -/
def appendRest (fuel h : Nat) (fsn : FSN) (depth repeatNumber : Nat) (db : DB) : Except Err (Node × DB) :=
  match appendFillLastChild (appendRec h) fsn (depth - 1) repeatNumber db with
  | .error e => .error e
  | .ok (fsn, db) =>
    let dn := db.done
    let depth := if dn.1 then depth else depth + 1
    match growLoop fuel depth fsn dn.2 with
    | .error e => .error e
    | .ok (fsn, db) =>
      match fsn.commit with
      | .error e => .error e
      | .ok (n, _) => .ok (n, db)

/-- trickledag.go:94-154 `Append`. `fuel` bounds the number of depths of the final loop, `h` the
recursion into last children. -/
def append (fuel h : Nat) (base : Node) (db : DB) : Except Err (Node × DB) :=
  match base with
  | .proto d ls b =>
    match FSN.fromDag d ls b with
    | .error e => .error e
    | .ok fsn =>
      let info := depthInfo fsn db.maxlinks
      if info.1 = 0 then
        match DB.fillNodeLayer fsn db with
        | .error e => .error e
        | .ok (fsn, db) =>
          match db.done with
          | (true, db) => .ok (fsn.getDagNode, db)
          | (false, db) => appendRest fuel h fsn 1 info.2 db
      else appendRest fuel h fsn info.1 info.2 db
  | _ => .error .notProtobuf

/-! ## VerifyTrickleDagStructure -/

/-- trickledag.go:285-291 `type VerifyParams struct`. Simplification: `Direct` and `LayerRepeat` are
natural numbers. -/
structure VerifyParams where
  direct : Nat
  layerRepeat : Nat
  pfx : Option Builder := none
  rawLeaves : Bool := false
  canGet : Node → Bool := fun _ => true

/-- `n.Cid().Prefix()`. importer/trickle/trickledag.go:335. -/
def cidPrefix : Node → Option Builder
  | .proto _ _ b => some b
  | .raw _ b => some b
  | .other _ => none

/-- trickledag.go:334-347: the prefix check (the multihash length is always the actual one, as with
`MhLength = -1`). -/
def prefixOK (p : VerifyParams) (n : Node) (codec : Nat) : Bool :=
  match p.pfx with
  | none => true
  | some e =>
    let e := { e with codec := codec }
    let e := if codec = Builder.rawCodec ∧ e.version = 0 then { e with version := 1 } else e
    cidPrefix n == some e

mutual
/-- trickledag.go:302-397 `verifyTDagRec`; `depth < 0` is the unlimited root. -/
def verifyRec (p : VerifyParams) : Node → Int → Except Err Unit
  | n, depth =>
    if depth = 0 then
      if n.links.isEmpty then
        match n with
        | .proto d _ _ =>
          match FSNode.fromBytes d with
          | .error e => .error e
          | .ok fsn =>
            if fsn.type ≠ TRaw then .error (.badTrickle "expected raw block")
            else if p.rawLeaves then .error (.badTrickle "expected raw leaf, got a protobuf node")
            else if prefixOK p n 0x70 then .ok () else .error (.badTrickle "unexpected cid prefix")
        | .raw .. =>
          if ¬p.rawLeaves then .error (.badTrickle "expected protobuf node as leaf")
          else if prefixOK p n Builder.rawCodec then .ok () else .error (.badTrickle "unexpected cid prefix")
        | .other _ => .error (.badTrickle "expected ProtoNode or RawNode")
      else .error (.badTrickle "expected direct block")
    else if ¬prefixOK p n 0x70 then .error (.badTrickle "unexpected cid prefix")
    else match n with
      | .proto d ls _ =>
        match FSNode.fromBytes d with
        | .error e => .error e
        | .ok fsn =>
          if fsn.type ≠ TFile then .error (.badTrickle "expected file as branch node")
          else if fsn.data.length > 0 then .error (.badTrickle "branch node should not have data")
          else verifyLinks p ls 0 depth
      | _ => .error (.badTrickle "expected ProtoNode")
/-- trickledag.go:372-395: the loop over the links, from index `i`. Dividing by a `LayerRepeat` of 0
panics. -/
def verifyLinks (p : VerifyParams) : List Link → Nat → Int → Except Err Unit
  | [], _, _ => .ok ()
  | .mk _ _ child :: ls, i, depth =>
    if ¬p.canGet child then .error .notFound
    else if i < p.direct then
      match verifyRec p child 0 with
      | .error e => .error e
      | .ok () => verifyLinks p ls (i + 1) depth
    else if p.layerRepeat = 0 then .error .panic
    else
      let rdepth : Int := ((i - p.direct) / p.layerRepeat + 1 : Nat)
      if rdepth ≥ depth ∧ depth > 0 then .error (.badTrickle "child dag was too deep")
      else match verifyRec p child rdepth with
        | .error e => .error e
        | .ok () => verifyLinks p ls (i + 1) depth
end

/-- trickledag.go:297-299 `VerifyTrickleDagStructure`. -/
def verify (n : Node) (p : VerifyParams) : Except Err Unit := verifyRec p n (-1)

end Unixfs.Import.Trickle
