import Verif.Hamt.Walk

/-!
# `/repo/io/directory.go`: `BasicDirectory`, `HAMTDirectory`, `DynamicDirectory`

A `Dir` is the directory inside a `DynamicDirectory`; every `Directory` that a client can get is one
(directory.go:144, 169, 175). As in `Verif.Hamt.Shard`, mutation is modelled by returning the new
state, also on failure; fetches go through the oracle `net`, additions to the DAG service through
`ref`.

The parallel enumeration of a HAMT is the transition system of `Verif.Hamt.Walk`. Which of its runs
takes place is chosen by the oracle `enum`: `enum k s stop` is the outcome of the `k`-th enumeration,
if it is of the shard `s` by a consumer that leaves when `stop` holds of what it has received.
`Env.Real` (in `Verif.Spec.Dir`) says that the outcomes are outcomes of runs.

Simplifications:
* Go's `int` is `Int` (no overflow of byte counts).
* `GetNode` of a `BasicDirectory` returns a pointer to the directory's own node, which later calls
  change; here it returns the node as it is at the time of the call.
* A `ProtoNode` sorts its links by name when it is encoded; `Links` then returns them in that order.
  Here they stay in the order of insertion. What is said below about lists of links is independent of
  their order.
-/

namespace Unixfs.Dir
open Unixfs.Hamt

/-- Outcome of a parallel enumeration: how the consumer stopped reading, and what it received.
For `parallelShardWalk` as called at io/directory.go:517-536 and hamt/hamt.go:416-431. -/
structure EnumRun where
  ret : Ret
  got : List Link

/-- What a directory depends on. io/directory.go:29, 35 (globals), 99-122 (`dserv`). -/
structure Env where
  /-- `internal.HAMTHashFunction`. -/
  H : Hash
  net : Net
  ref : Nat → Bool
  /-- Outcomes of enumerations. -/
  enum : Nat → Shard → (List Link → Bool) → EnumRun
  /-- The nodes that cannot be fetched during the `k`-th enumeration. -/
  bad : Nat → Node → Prop
  /-- The caller cancels the context of the `k`-th enumeration. -/
  cancel : Nat → Prop
  /-- directory.go:35 `DefaultShardWidth`. -/
  width : Int

/-- directory.go:87-89 `productionLinkSize`, the value of `linksize.LinkSizeFunction`. -/
def linkSize (name : Bytes) (target : Node) : Int := name.length + target.cidLen

/-- directory.go:99-110 `BasicDirectory`; `data`, `links` and `builder` are its `ProtoNode`. -/
structure Basic where
  data : Bytes
  links : List Link
  builder : Builder
  estimatedSize : Int

/-- directory.go:115-122 `HAMTDirectory`. -/
structure HamtDir where
  shard : Shard
  sizeChange : Int

/-- directory.go:544-546 `DynamicDirectory`: what it wraps. -/
inductive Dir where
  | basic (b : Basic)
  | hamt (h : HamtDir)

namespace Basic

/-- The node of the directory. Field `node`, io/directory.go:100. -/
def node (d : Basic) : Node := .proto d.data d.links d.builder

/-- directory.go:192-194 `addToEstimatedSize`. -/
def addToEstimatedSize (d : Basic) (name : Bytes) (target : Node) : Basic :=
  { d with estimatedSize := d.estimatedSize + linkSize name target }

/-- directory.go:181-190 `computeEstimatedSize`. -/
def computeEstimatedSize (d : Basic) : Basic :=
  d.links.foldl (fun d l => d.addToEstimatedSize l.name l.target) { d with estimatedSize := 0 }

/-- directory.go:196-204 `removeFromEstimatedSize`. -/
def removeFromEstimatedSize (d : Basic) (name : Bytes) (target : Node) : Basic :=
  let d' := { d with estimatedSize := d.estimatedSize - linkSize name target }
  if d'.estimatedSize < 0 then d'.computeEstimatedSize else d'

/-- directory.go:128-137 `newBasicDirectoryFromNode`. -/
def ofNode (data : Bytes) (links : List Link) (builder : Builder) : Basic :=
  computeEstimatedSize { data := data, links := links, builder := builder, estimatedSize := 0 }

/-- directory.go:124-126 `newEmptyBasicDirectory` with unixfs.go:400-402 `EmptyDirNode`. -/
def empty : Basic := ofNode folderPBData [] .v0

/-- directory.go:207-209 `SetCidBuilder`. -/
def setCidBuilder (d : Basic) (b : Option Builder) : Basic := { d with builder := pbBuilder b }

/-- go-merkledag `GetNodeLink`: the first link with the name. Called at io/directory.go:229, 298, 315. -/
def getNodeLink (d : Basic) (name : Bytes) : Option Link := d.links.find? (fun l => l.name = name)

/-- directory.go:310-329 `RemoveChild`; go-merkledag `RemoveNodeLink` removes all links with the
name. -/
def removeChild (d : Basic) (name : Bytes) : Except Err Unit × Basic :=
  match d.getNodeLink name with
  | none => (.error .notExist, d)
  | some l =>
    let d' := d.removeFromEstimatedSize l.name l.target
    (.ok (), { d' with links := d'.links.filter (fun l => l.name ≠ name) })

/-- directory.go:245-259 `addLinkChild`; go-merkledag `AddRawLink` appends. -/
def addLinkChild (d : Basic) (name : Bytes) (link : Link) : Except Err Unit × Basic :=
  match d.removeChild name with
  | (r, d') =>
    match r with
    | .error e => if e ≠ .notExist then (.error e, d')
        else (.ok (), addToEstimatedSize { d' with links := d'.links ++ [.mk name link.tsize link.target] } name link.target)
    | .ok () => (.ok (), addToEstimatedSize { d' with links := d'.links ++ [.mk name link.tsize link.target] } name link.target)

/-- directory.go:213-220 `AddChild`. -/
def addChild (d : Basic) (name : Bytes) (nd : Node) : Except Err Unit × Basic := d.addLinkChild name (makeLink [] nd)

/-- directory.go:222-241 `needsToSwitchToHAMTDir`, with a node to add; `thr` is `HAMTShardingSize`. -/
def needsToSwitchToHAMTDir (d : Basic) (thr : Int) (name : Bytes) (nd : Node) : Bool :=
  if thr = 0 then false
  else
    let op := (match d.getNodeLink name with | some l => - linkSize name l.target | none => 0) + linkSize name nd
    d.estimatedSize + op ≥ thr

/-- directory.go:297-307 `Find`. -/
def find (env : Env) (d : Basic) (name : Bytes) (t : Nat) : Except Err Node × Nat :=
  match d.getNodeLink name with
  | none => (.error .notExist, t)
  | some l => (if env.net t l.target then .ok l.target else .error .notFound, t + 1)

/-- directory.go:282-289 `ForEachLink`: the links given to the client, and the error. `cb k`: the
`k`-th call of the client's function fails. -/
def forEachLink (d : Basic) (cb : Nat → Bool) : List Link × Option Err := go d.links 0
where
  go : List Link → Nat → List Link × Option Err
    | [], _ => ([], none)
    | l :: ls, j => if cb j then ([l], some (.hamt "callback")) else match go ls (j + 1) with | (r, e) => (l :: r, e)

/-- directory.go:353-358: the loop of `switchToSharding`. -/
def setLinks (env : Env) : List Link → Shard → Nat → Except Err Shard × Nat
  | [], s, t => (.ok s, t)
  | l :: ls, s, t =>
    match s.setLinkOp env.H env.net l.name l t with
    | (.error e, _, t') => (.error e, t')
    | (.ok (), s', t') => setLinks env ls s' t'

/-- directory.go:342-361 `switchToSharding`. -/
def switchToSharding (env : Env) (d : Basic) (t : Nat) : Except Err HamtDir × Nat :=
  match newShard env.width with
  | .error e => (.error e, t)
  | .ok s =>
    match setLinks env d.links (s.setCidBuilder (some d.builder)) t with
    | (.error e, t') => (.error e, t')
    | (.ok s', t') => (.ok { shard := s', sizeChange := 0 }, t')

end Basic

namespace HamtDir

/-- directory.go:369-380 `AddChild`. The sizes are those of the links as the shard holds them: the
name of the old link usually has the index digits in front. -/
def addChild (env : Env) (d : HamtDir) (name : Bytes) (nd : Node) (t : Nat) (st : List Node) : Except Err Unit × HamtDir × Nat × List Node :=
  match d.shard.swap env.H env.net env.ref name nd t st with
  | (.error e, s, t', st') => (.error e, { d with shard := s }, t', st')
  | (.ok old, s, t', st') =>
    (.ok (), { shard := s, sizeChange := d.sizeChange - (match old with | some l => linkSize l.name l.target | none => 0) + linkSize name nd }, t', st')

/-- directory.go:409-420 `RemoveChild`. -/
def removeChild (env : Env) (d : HamtDir) (name : Bytes) (t : Nat) : Except Err Unit × HamtDir × Nat :=
  match d.shard.take env.H env.net name t with
  | (.error e, s, t') => (.error e, { d with shard := s }, t')
  | (.ok old, s, t') => (.ok (), { shard := s, sizeChange := d.sizeChange - (match old with | some l => linkSize l.name l.target | none => 0) }, t')

/-- directory.go:399-406 `Find`. -/
def find (env : Env) (d : HamtDir) (name : Bytes) (t : Nat) : Except Err Node × HamtDir × Nat :=
  match d.shard.find env.H env.net name t with
  | (.error e, s, t') => (.error e, { d with shard := s }, t')
  | (.ok none, s, t') => (.error .panic, { d with shard := s }, t')
  | (.ok (some l), s, t') => (if env.net t' l.target then .ok l.target else .error .notFound, { d with shard := s }, t' + 1)

/-- The sum in directory.go:527. -/
def partialSize (ls : List Link) : Int := (ls.map (fun l => linkSize l.name l.target)).sum

/-- directory.go:509-537 `sizeBelowThreshold`; `k` counts the enumerations. -/
def sizeBelowThreshold (env : Env) (d : HamtDir) (thr sizeChange : Int) (k : Nat) : Except Err Bool × Nat :=
  if thr = 0 then (.error .panic, k)
  else
    match (env.enum k d.shard (fun got => partialSize got + sizeChange ≥ thr)).ret with
    | .err e => (.error e, k + 1)
    | .stopped => (.ok false, k + 1)
    | .ended => (.ok true, k + 1)

/-- directory.go:471-501 `needsToSwitchToBasicDir`; `none` is a nil node. -/
def needsToSwitchToBasicDir (env : Env) (d : HamtDir) (thr : Int) (name : Bytes) (nd : Option Node) (t k : Nat) :
    Except Err Bool × HamtDir × Nat × Nat :=
  if thr = 0 then (.ok false, d, t, k)
  else
    let add : Int := match nd with | some nd => linkSize name nd | none => 0
    match d.shard.find env.H env.net name t with
    | (r, s, t') =>
      let d' := { d with shard := s }
      match r with
      | .ok none => (.error .panic, d', t', k)
      | .ok (some l) => decide d' (- linkSize name l.target + add) t'
      | .error .notExist => decide d' add t'
      | .error e => (.error e, d', t', k)
where
  /-- directory.go:493-500. -/
  decide (d : HamtDir) (op : Int) (t : Nat) : Except Err Bool × HamtDir × Nat × Nat :=
    if d.sizeChange + op ≥ 0 then (.ok false, d, t, k)
    else match d.sizeBelowThreshold env thr op k with | (r, k') => (r, d, t, k')

/-- directory.go:437-450: the links given to the callback are added in turn. -/
def addLinks : List Link → Basic → Except Err Basic
  | [], b => .ok b
  | l :: ls, b =>
    match b.addLinkChild l.name l with
    | (.error e, _) => .error e
    | (.ok (), b') => addLinks ls b'

/-- directory.go:433-455 `switchToBasic`. The callback cannot fail (`addLinkChild` does not), so that
the links can be collected first. -/
def switchToBasic (env : Env) (d : HamtDir) (t : Nat) : Except Err Basic × HamtDir × Nat :=
  match d.shard.forEachLink env.net (fun _ => false) t with
  | (some e, s, es) => (.error e, { d with shard := s }, es.t)
  | (none, s, es) => (addLinks es.out (Basic.empty.setCidBuilder d.shard.builder), { d with shard := s }, es.t)

end HamtDir

/-- State of a client: the directory; the fetches, the additions to the DAG service and the
enumerations so far; directory.go:29 `HAMTShardingSize`, a global variable. -/
structure Cfg where
  dir : Dir
  t : Nat
  st : List Node
  k : Nat
  thr : Int

/-- directory.go:143-145 `NewDirectory`. -/
def newDirectory : Dir := .basic .empty

/-- directory.go:156-179 `NewDirectoryFromNode`. -/
def newDirectoryFromNode : Node → Except Err Dir
  | .proto d ls b =>
    match FSNode.fromBytes d with
    | .error e => .error e
    | .ok fs =>
      if fs.type = TDirectory then .ok (.basic (.ofNode d ls b))
      else if fs.type = THAMTShard then
        match newHamtFromDag (.proto d ls b) with
        | .error e => .error e
        | .ok s => .ok (.hamt { shard := s, sizeChange := 0 })
      else .error (.dir "merkledag node was not a directory or shard")
  | _ => .error (.dir "merkledag node was not a directory or shard")

/-- directory.go:552-598 `DynamicDirectory.AddChild`. -/
def addChild (env : Env) (c : Cfg) (name : Bytes) (nd : Node) : Except Err Unit × Cfg :=
  match c.dir with
  | .hamt h =>
    match h.needsToSwitchToBasicDir env c.thr name (some nd) c.t c.k with
    | (.error e, h', t, k) => (.error e, { c with dir := .hamt h', t := t, k := k })
    | (.ok true, h', t, k) =>
      match h'.switchToBasic env t with
      | (.error e, h'', t) => (.error e, { c with dir := .hamt h'', t := t, k := k })
      | (.ok b, h'', t) =>
        match b.addChild name nd with
        | (.error e, _) => (.error e, { c with dir := .hamt h'', t := t, k := k })
        | (.ok (), b') => (.ok (), { c with dir := .basic b', t := t, k := k })
    | (.ok false, h', t, k) =>
      match h'.addChild env name nd t c.st with
      | (r, h'', t, st) => (r, { c with dir := .hamt h'', t := t, k := k, st := st })
  | .basic b =>
    if b.needsToSwitchToHAMTDir c.thr name nd = false then
      match b.addChild name nd with
      | (r, b') => (r, { c with dir := .basic b' })
    else
      match b.switchToSharding env c.t with
      | (.error e, t) => (.error e, { c with t := t })
      | (.ok h, t) =>
        match h.addChild env name nd t c.st with
        | (.error e, _, t, st) => (.error e, { c with t := t, st := st })
        | (.ok (), h', t, st) => (.ok (), { c with dir := .hamt h', t := t, st := st })

/-- directory.go:603-628 `DynamicDirectory.RemoveChild`. -/
def removeChild (env : Env) (c : Cfg) (name : Bytes) : Except Err Unit × Cfg :=
  match c.dir with
  | .basic b => match b.removeChild name with | (r, b') => (r, { c with dir := .basic b' })
  | .hamt h =>
    match h.needsToSwitchToBasicDir env c.thr name none c.t c.k with
    | (.error e, h', t, k) => (.error e, { c with dir := .hamt h', t := t, k := k })
    | (.ok false, h', t, k) =>
      match h'.removeChild env name t with
      | (r, h'', t) => (r, { c with dir := .hamt h'', t := t, k := k })
    | (.ok true, h', t, k) =>
      match h'.switchToBasic env t with
      | (.error e, h'', t) => (.error e, { c with dir := .hamt h'', t := t, k := k })
      | (.ok b, h'', t) =>
        match b.removeChild name with
        | (.error e, _) => (.error e, { c with dir := .hamt h'', t := t, k := k })
        | (.ok (), b') => (.ok (), { c with dir := .basic b', t := t, k := k })

/-- directory.go:297-307, 399-406 `Find`. -/
def find (env : Env) (c : Cfg) (name : Bytes) : Except Err Node × Cfg :=
  match c.dir with
  | .basic b => match b.find env name c.t with | (r, t) => (r, { c with t := t })
  | .hamt h => match h.find env name c.t with | (r, h', t) => (r, { c with dir := .hamt h', t := t })

/-- directory.go:292-294, 394-396 `Links` with hamt.go:390-402 `EnumLinks`. -/
def links (env : Env) (c : Cfg) : List Link × Option Err × Cfg :=
  match c.dir with
  | .basic b => (b.links, none, c)
  | .hamt h =>
    match env.enum c.k h.shard (fun _ => false) with
    | r => (r.got, match r.ret with | .err e => some e | _ => none, { c with k := c.k + 1 })

/-- directory.go:282-289, 383-385 `ForEachLink`. -/
def forEachLink (env : Env) (c : Cfg) (cb : Nat → Bool) : List Link × Option Err × Cfg :=
  match c.dir with
  | .basic b => match b.forEachLink cb with | (ls, e) => (ls, e, c)
  | .hamt h =>
    match h.shard.forEachLink env.net cb c.t with
    | (e, s, es) => (es.out, e, { c with dir := .hamt { h with shard := s }, t := es.t })

/-- directory.go:332-334, 423-425 `GetNode`. -/
def getNode (env : Env) (c : Cfg) : Except Err Node × Cfg :=
  match c.dir with
  | .basic b => (.ok b.node, c)
  | .hamt h => match h.shard.toNode env.ref c.st with | (r, st) => (r, { c with st := st })

/-- directory.go:207-209, 364-366 `SetCidBuilder`. -/
def setCidBuilder (c : Cfg) (b : Option Builder) : Cfg :=
  match c.dir with
  | .basic d => { c with dir := .basic (d.setCidBuilder b) }
  | .hamt h => { c with dir := .hamt { h with shard := h.shard.setCidBuilder b } }

end Unixfs.Dir
