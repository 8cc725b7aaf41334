import Verif.Import.Balanced
import Verif.Import.Trickle

/-!
# Abstract trees of chunks and the nodes that represent them

`T` is a tree whose leaves are chunks. `T.toNode` is the merkle-DAG representing it under a builder
configuration. The importers are shown to return `toNode` of some tree; everything about content,
sizes, stored nodes is then a property of `toNode`, everything about shape a property of `T`.
-/

namespace Unixfs

/-- The bytes of a node whose `Type` is set (`GetBytes` cannot fail then).
Used in specifications and proofs only. -/
def FSNode.bytes (f : FSNode) : Bytes := match f.getBytes with | .ok b => b | .error _ => []

namespace Import

/-- The builder settings that determine how a tree is represented. Used in specifications and proofs only. -/
structure Cfg where
  rawLeaves : Bool
  cidBuilder : Option Builder
  leafType : UInt32

/-- Used in specifications and proofs only. -/
def Cfg.pbBuilder (c : Cfg) : Builder := (c.cidBuilder.getD .v0).withCodec 0x70

/-- Used in specifications and proofs only. -/
def DB.cfg (db : DB) (t : UInt32) : Cfg := ⟨db.rawLeaves, db.cidBuilder, t⟩

/-- A tree of chunks. Used in specifications and proofs only. -/
inductive T where
  | leaf (d : Bytes)
  | node (ts : List T)

mutual
/-- The chunks of a tree, left to right. Used in specifications and proofs only. -/
def T.chunks : T → List Bytes
  | .leaf d => [d]
  | .node ts => T.chunksL ts
/-- Used in specifications and proofs only. -/
def T.chunksL : List T → List Bytes
  | [] => []
  | t :: ts => t.chunks ++ T.chunksL ts
end

/-- File size recorded for a tree. Used in specifications and proofs only. -/
def T.size (t : T) : UInt64 := UInt64.ofNat t.chunks.flatten.length

/-- The leaf node for one chunk. Used in specifications and proofs only. -/
def Cfg.leafNode (c : Cfg) (d : Bytes) : Node :=
  if c.rawLeaves then
    match c.cidBuilder with
    | none => .raw d ⟨1, Builder.rawCodec, 0x12, 32⟩
    | some b => .raw d (b.withCodec Builder.rawCodec)
  else .proto ((FSNode.new c.leafType).setData (some d)).bytes [] c.pbBuilder

/-- `AddBlockSize` for each size. Used in specifications and proofs only. -/
def addSizes (f : FSNode) (ss : List UInt64) : FSNode := ss.foldl FSNode.addBlockSize f

mutual
/-- Used in specifications and proofs only. -/
def T.toNode (c : Cfg) : T → Node
  | .leaf d => c.leafNode d
  | .node ts => .proto (addSizes (FSNode.new TFile) (ts.map T.size)).bytes (T.toLinks c ts) c.pbBuilder
/-- Used in specifications and proofs only. -/
def T.toLinks (c : Cfg) : List T → List Link
  | [] => []
  | t :: ts => makeLink [] (t.toNode c) :: T.toLinks c ts
end

mutual
/-- All nodes of a tree, children before parents. Used in specifications and proofs only. -/
def T.nodes (c : Cfg) : T → List Node
  | .leaf d => [c.leafNode d]
  | .node ts => T.nodesL c ts ++ [T.toNode c (.node ts)]
/-- Used in specifications and proofs only. -/
def T.nodesL (c : Cfg) : List T → List Node
  | [] => []
  | t :: ts => t.nodes c ++ T.nodesL c ts
end

/-- A node under construction with further sub-trees added. Used in specifications and proofs only. -/
def FSN.addTrees (c : Cfg) (n : FSN) (ts : List T) : FSN :=
  { n with links := n.links ++ T.toLinks c ts, file := addSizes n.file (ts.map T.size) }

/-! ### List lemmas -/

theorem T.chunksL_append (a b : List T) : T.chunksL (a ++ b) = T.chunksL a ++ T.chunksL b := by
  induction a with
  | nil => rfl
  | cons t a ih => simp [T.chunksL, ih]

theorem T.toLinks_append (c : Cfg) (a b : List T) : T.toLinks c (a ++ b) = T.toLinks c a ++ T.toLinks c b := by
  induction a with
  | nil => rfl
  | cons t a ih => simp [T.toLinks, ih]

theorem T.nodesL_append (c : Cfg) (a b : List T) : T.nodesL c (a ++ b) = T.nodesL c a ++ T.nodesL c b := by
  induction a with
  | nil => rfl
  | cons t a ih => simp [T.nodesL, ih]

theorem T.toLinks_length (c : Cfg) (a : List T) : (T.toLinks c a).length = a.length := by
  induction a with
  | nil => rfl
  | cons t a ih => simp [T.toLinks, ih]

theorem T.toLinks_eq_map (c : Cfg) (a : List T) : T.toLinks c a = a.map (fun t => makeLink [] (t.toNode c)) := by
  induction a with
  | nil => rfl
  | cons t a ih => simp [T.toLinks, ih]

theorem addSizes_append (f : FSNode) (a b : List UInt64) : addSizes f (a ++ b) = addSizes (addSizes f a) b := by
  simp [addSizes]

theorem FSN.addTrees_nil (c : Cfg) (n : FSN) : n.addTrees c [] = n := by
  simp [FSN.addTrees, T.toLinks, addSizes]

theorem FSN.addTrees_append (c : Cfg) (n : FSN) (a b : List T) :
    n.addTrees c (a ++ b) = (n.addTrees c a).addTrees c b := by
  simp [FSN.addTrees, T.toLinks_append, addSizes_append]

/-- Fields of `addSizes`. -/
theorem addSizes_format (f : FSNode) (ss : List UInt64) :
    (addSizes f ss).format = { f.format with
      blocksizes := f.format.blocksizes ++ ss
      filesize := if ss = [] then f.format.filesize else some (f.format.getFilesize + ss.sum) } := by
  induction ss generalizing f with
  | nil => simp [addSizes]
  | cons s ss ih =>
    have := ih (f.addBlockSize s)
    simp only [addSizes, List.foldl_cons] at this ⊢
    rw [this]
    simp only [FSNode.addBlockSize, FSNode.updateFilesize, Pb.Data.getFilesize]
    by_cases h : ss = []
    · subst h; simp
    · simp [h, UInt64.add_assoc]

theorem FSN.numChildren_addTrees (c : Cfg) (n : FSN) (ts : List T) :
    (n.addTrees c ts).numChildren = n.numChildren + ts.length := by
  simp [FSN.numChildren, FSNode.numChildren, FSN.addTrees, addSizes_format]

theorem FSNode.getBytes_of_typ (f : FSNode) (h : f.format.typ.isSome) : f.getBytes = .ok f.bytes := by
  unfold FSNode.bytes FSNode.getBytes Pb.Data.marshal
  obtain ⟨t, ht⟩ := Option.isSome_iff_exists.mp h
  simp [ht]

theorem FSN.commit_of_typ (n : FSN) (h : n.file.format.typ.isSome) :
    n.commit = .ok (.proto n.file.bytes n.links n.builder, { n with dagData := n.file.bytes }) := by
  simp [FSN.commit, FSNode.getBytes_of_typ _ h, FSN.getDagNode]

theorem addSizes_typ (f : FSNode) (ss : List UInt64) : (addSizes f ss).format.typ = f.format.typ := by
  rw [addSizes_format]

end Import
end Unixfs
