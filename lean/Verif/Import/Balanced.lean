import Verif.Import.Helpers

/-! # `/repo/importer/balanced/builder.go` -/

namespace Unixfs.Import.Balanced

/-- The loop builder.go:237-258 of `fillNodeRec`; `child` builds the next child (a leaf at depth 1,
a recursive call otherwise). `k` = `Maxlinks - NumChildren` at entry (one child per iteration). -/
def fillLoop (child : DB → Except Err ((Built × UInt64) × DB)) : Nat → FSN → DB → Except Err (FSN × DB)
  | 0, node, db => .ok (node, db)
  | k + 1, node, db =>
    match db.done with
    | (true, db) => .ok (node, db)
    | (false, db) =>
      match child db with
      | .error e => .error e
      | .ok ((c, size), db) =>
        match node.addChild c size db with
        | .error e => .error e
        | .ok (node, db) => fillLoop child k node db

/-- builder.go:225-268: the body of `fillNodeRec`, given how it builds the next child. `node = none`
is the Go `nil`. -/
def fillWith (child : DB → Except Err ((Built × UInt64) × DB)) (node : Option FSN) (db : DB) :
    Except Err ((Built × UInt64) × DB) :=
  let node := node.getD (FSN.new db TFile)
  match fillLoop child (db.maxlinks - node.numChildren) node db with
  | .error e => .error e
  | .ok (node, db) =>
    let nodeFileSize := node.fileSize
    match node.commit with
    | .error e => .error e
    | .ok (n, _) => .ok ((⟨n, none⟩, nodeFileSize), db)

/-- builder.go:220-269 `fillNodeRec` at depth `d + 1` (depth 0 is rejected by the code and never
requested): leaves at depth 1 (240-245), recursive calls with a nil node otherwise (246-252). -/
def fillNodeRec : Nat → Option FSN → DB → Except Err ((Built × UInt64) × DB)
  | 0 => fillWith (fun db => db.newLeafDataNode TFile)
  | d + 1 => fillWith (fun db => fillNodeRec d none db)

/-- The loop builder.go:159-175 of `Layout`. `d` is `depth - 1`; `fuel` bounds the number of
iterations. -/
def layoutLoop : Nat → Nat → Built → UInt64 → DB → Except Err (Built × DB)
  | 0, _, root, _, db =>
    match db.done with
    | (true, db) => .ok (root, db)
    | (false, _) => .error .outOfFuel
  | fuel + 1, d, root, fileSize, db =>
    match db.done with
    | (true, db) => .ok (root, db)
    | (false, db) =>
      match (FSN.new db TFile).addChild root fileSize db with
      | .error e => .error e
      | .ok (newRoot, db) =>
        match fillNodeRec d (some newRoot) db with
        | .error e => .error e
        | .ok ((root, fileSize), db) => layoutLoop fuel (d + 1) root fileSize db

/-- builder.go:134-178 `Layout`. -/
def layout (fuel : Nat) (db : DB) : Except Err (Built × DB) :=
  match db.done with
  | (true, db) =>
    match db.newLeafNode none TFile with
    | .error e => .error e
    | .ok n =>
      match db.add ⟨n, none⟩ with
      | .error e => .error e
      | .ok db => .ok (⟨n, none⟩, db)
  | (false, db) =>
    match db.newLeafDataNode TFile with
    | .error e => .error e
    | .ok ((root, fileSize), db) =>
      match layoutLoop fuel 0 root fileSize db with
      | .error e => .error e
      | .ok (root, db) =>
        match db.add root with
        | .error e => .error e
        | .ok db => .ok (root, db)

end Unixfs.Import.Balanced
