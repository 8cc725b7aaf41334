import Verif.Mod.DagModifier

/-!
# `/repo/mod/dagmodifier.go`, with the links as objects in memory

A `ProtoNode` holds its links as a slice of pointers. `Copy` (go-merkledag v0.5.1) makes a new slice with
the same pointers. `NewDagModifier` copies the node it is given (dagmodifier.go:79) and `GetNode` copies
the current node (441), so the client's nodes and the modifier's node share their links, and
`node.Links()[i].Cid = k` (dagmodifier.go:339) changes the link for all of them.

`HDM` is a modifier with the addresses of the links of its current node, the memory, and the nodes that
the client holds. The calls do what `Mod/DagModifier.lean` says (`HDM.step_erase` in `Mod/AliasLemmas.lean`);
here is only what they do to the memory:

* `modifyDag` changes the links of the node it is given (the nodes below are fetched, nobody else has
  them). All links are written; those that `modifyDag` leaves alone keep their value.
* `dagserv.Get` makes new links.
* `AddNodeLink` makes a new link and keeps the others; `SetLinks` is given part of the same links.

Simplifications: a DAG service decodes a block anew for every `Get`; no two links of a node given by
the client are the same object; the CID and the bytes that a `ProtoNode` caches are not modelled.
-/

namespace Unixfs.Mod
open Unixfs Unixfs.Import

/-- A `*ProtoNode` that the client holds: data, addresses of the links, builder.
mod/dagmodifier.go:79, 441. -/
structure Obj where
  data : Bytes
  links : List Nat
  builder : Builder

/-- The node that the client sees. mod/dagmodifier.go:79, 441. -/
def Obj.view (heap : Nat → Link) (o : Obj) : Node := .proto o.data (o.links.map heap) o.builder

/-- The memory after writing `ls` to the addresses `ids`. mod/dagmodifier.go:339. -/
def store (heap : Nat → Link) (ids : List Nat) (ls : List Link) : Nat → Link :=
  fun i => match (ids.zip ls).lookup i with | some l => l | none => heap i

/-- The number of links that two lists have in common at their beginning. Not in the code; see `adopt`. -/
def samePrefix : List Link → List Link → Nat
  | a :: as, b :: bs => if a = b then samePrefix as bs + 1 else 0
  | _, _ => 0

/-- trickledag.go:94-148 `Append`: the links of the node before the last one are kept; the last one is
replaced (in `appendFillLastChild`, 156-179) if there are more than `maxlinks`. -/
def appendKeeps : Node → Nat
  | .proto d ls _ =>
    match FSNode.fromBytes d with
    | .error _ => ls.length
    | .ok fs => if fs.numChildren > defaultLinksPerBlock then fs.numChildren - 1 else ls.length
  | _ => 0

/-- A modifier, the addresses of the links of `dm.cur`, the memory, the first address that is free, and
the nodes that the client holds. mod/dagmodifier.go:40-58. -/
structure HDM where
  dm : DM
  cells : List Nat
  heap : Nat → Link
  next : Nat
  held : List Obj

/-- dagmodifier.go:64-87 `NewDagModifier`. The client holds the node it has given. -/
def HDM.new (n : Node) : Except Err HDM :=
  match newDagModifier n with
  | .error e => .error e
  | .ok dm => .ok {
      dm := dm
      cells := List.range n.links.length
      heap := store (fun _ => .mk [] 0 (.other [])) (List.range n.links.length) n.links
      next := n.links.length
      held := match n with | .proto d ls b => [⟨d, List.range ls.length, b⟩] | _ => [] }

namespace HDM

/-- The modifier goes on with `dm`. The first `keep` links of its node are the same objects as before,
the others are new. (Links that are kept have kept their value, so the bound by `samePrefix` changes
nothing.)
mod/dagmodifier.go:140-142, 226, 233-241, 523: assignments to `curNode`. -/
def adopt (hd : HDM) (dm : DM) (keep : Nat) : HDM :=
  let k := min keep (samePrefix hd.dm.cur.links dm.cur.links)
  let new := dm.cur.links.drop k
  { hd with
    dm := dm
    cells := hd.cells.take k ++ List.range' hd.next new.length
    heap := store hd.heap (List.range' hd.next new.length) new
    next := hd.next + new.length }

/-- dagmodifier.go:131-142 `expandSparse`. `kp t`: how many links are kept by an `Append` that fails as
the `t`-th request. -/
def expandSparse (env : Env) (kp : Nat → Nat) (hd : HDM) (size : Int) : Except Err Unit × HDM :=
  match hd.dm.appendData env (zeroChunks size.toNat) none, hd.dm.expandSparse env size with
  | (.error _, _), (r, dm) => (r, hd.adopt dm (kp hd.dm.svc.tick))
  | (.ok _, _), (r, dm) => (r, hd.adopt dm (appendKeeps hd.dm.cur))

/-- dagmodifier.go:231-247: the end of `Sync`, after `modifyDag` and `Get`. -/
def syncTail (env : Env) (hd : HDM) (buflen : Nat) : Except Err Unit × HDM :=
  match hd.dm.syncTail env buflen with
  | (r, dm) => (r, hd.adopt dm (if (hd.dm.buf.getD []).isEmpty then hd.dm.cur.links.length else appendKeeps hd.dm.cur))

/-- dagmodifier.go:220-229: `modifyDag` on the current node, then `Get` of the result. -/
def syncModify (env : Env) (hd : HDM) (buflen : Nat) : Except Err Unit × HDM :=
  match modifyDag env hd.dm.cur hd.dm.ws (hd.dm.buf.getD []) hd.dm.svc with
  | (.error e, n, rest, svc) => (.error e, { hd with
      dm := { hd.dm with cur := n, buf := some rest, svc := svc }
      heap := store hd.heap hd.cells n.links })
  | (.ok k, n, rest, svc) =>
    let hd := { hd with heap := store hd.heap hd.cells n.links }
    match svc.get env k with
    | (.error e, svc) => (.error e, hd.adopt { hd.dm with cur := .other [], buf := some rest, svc := svc } 0)
    | (.ok (), svc) => (hd.adopt { hd.dm with cur := k, buf := some rest, svc := svc } 0).syncTail env buflen

/-- dagmodifier.go:195-248 `Sync`. -/
def sync (env : Env) (kp : Nat → Nat) (hd : HDM) : Except Err Unit × HDM :=
  match hd.dm.buf with
  | none => (.ok (), hd)
  | some buf =>
    let hd := { hd with dm := { hd.dm with read := none } }
    match fileSize hd.dm.cur with
    | .error e => (.error e, hd)
    | .ok fs =>
      if fs < hd.dm.ws then
        match hd.expandSparse env kp (s64 (hd.dm.ws - fs)) with
        | (.error e, hd) => (.error e, hd)
        | (.ok (), hd) => hd.syncModify env buf.length
      else hd.syncModify env buf.length

/-- dagmodifier.go:145-165 `Write`. -/
def write (env : Env) (kp : Nat → Nat) (hd : HDM) (b : Bytes) : Except Err Int × HDM :=
  let buf := hd.dm.buf.getD [] ++ b
  let hd := { hd with dm := { hd.dm with read := none, buf := some buf, cw := hd.dm.cw + UInt64.ofNat b.length } }
  if buf.length > env.wbuf then
    match hd.sync env kp with
    | (.error e, hd) => (.error e, hd)
    | (.ok (), hd) => (.ok b.length, hd)
  else (.ok b.length, hd)

/-- dagmodifier.go:90-119 `WriteAt`. -/
def writeAt (env : Env) (kp : Nat → Nat) (hd : HDM) (b : Bytes) (offset : Int) : Except Err Int × HDM :=
  if offset = s64 hd.dm.ws ∧ hd.dm.buf.isSome then
    if b.length ≥ (hd.dm.buf.getD []).length then { hd with dm := { hd.dm with buf := some [] } }.write env kp b
    else hd.write env kp b
  else if u64 offset ≠ hd.dm.cw then
    match hd.dm.size with
    | .error e => (.error e, hd)
    | .ok size =>
      match (if offset > size then hd.expandSparse env kp (i64 (offset - size)) else (.ok (), hd)) with
      | (.error e, hd) => (.error e, hd)
      | (.ok (), hd) =>
        match hd.sync env kp with
        | (.error e, hd) => (.error e, hd)
        | (.ok (), hd) => { hd with dm := { hd.dm with ws := u64 offset } }.write env kp b
  else hd.write env kp b

/-- dagmodifier.go:380-389 `Read` and 424-433 `CtxReadFull`: only `Sync` changes the node. -/
def readN (env : Env) (kp : Nat → Nat) (hd : HDM) (k : Nat) : DM.Got × HDM :=
  ((hd.dm.readN env k).1, { (hd.sync env kp).2 with dm := (hd.dm.readN env k).2 })

/-- dagmodifier.go:436-442 `GetNode`. The client holds the copy. -/
def getNode (env : Env) (kp : Nat → Nat) (hd : HDM) : Except Err Node × HDM :=
  match hd.sync env kp with
  | (.error e, hd) => (.error e, hd)
  | (.ok (), hd) =>
    (.ok hd.dm.cur, { hd with held := hd.held ++ match hd.dm.cur with | .proto d _ b => [⟨d, hd.cells, b⟩] | _ => [] })

/-- dagmodifier.go:474-489: the end of `Seek`: only `expandSparse` changes the node. -/
def seekTail (env : Env) (kp : Nat → Nat) (hd : HDM) (fisize : Int) (new : UInt64) (pos : Int) (offset whence : Int) : Except Err Int × HDM :=
  ((hd.dm.seekTail env fisize new pos offset whence).1,
    { (if pos > fisize then (hd.expandSparse env kp (i64 (pos - fisize))).2 else hd) with dm := (hd.dm.seekTail env fisize new pos offset whence).2 })

/-- dagmodifier.go:451-490 `Seek`. -/
def seek (env : Env) (kp : Nat → Nat) (hd : HDM) (offset whence : Int) : Except Err Int × HDM :=
  match hd.sync env kp with
  | (.error e, hd) => (.error e, hd)
  | (.ok (), hd) =>
    match hd.dm.size with
    | .error e => (.error e, hd)
    | .ok fisize =>
      match hd.dm.seekTo fisize offset whence with
      | .error e => (.error e, hd)
      | .ok new => hd.seekTail env kp fisize new (s64 new) offset whence

/-- dagmodifier.go:494-525 `Truncate`. Of a node with links, all but the last of the result are kept
(591-592). -/
def truncate (env : Env) (kp : Nat → Nat) (hd : HDM) (size : Int) : Except Err Unit × HDM :=
  match hd.sync env kp with
  | (.error e, hd) => (.error e, hd)
  | (.ok (), hd) =>
    match hd.dm.size with
    | .error e => (.error e, hd)
    | .ok realSize =>
      if size = realSize then (.ok (), hd)
      else if size > realSize then hd.expandSparse env kp (i64 (size - realSize))
      else
        match dagTruncate env hd.dm.cur (u64 size) hd.dm.svc with
        | (.error e, svc) => (.error e, { hd with dm := { hd.dm with svc := svc } })
        | (.ok n, svc) =>
          match svc.add env n with
          | (.error e, svc) => (.error e, hd.adopt { hd.dm with svc := svc
                                                                cur := if n.isProto then n else hd.dm.cur
                                                                read := hd.dm.touched } (n.links.length - 1))
          | (.ok (), svc) => (.ok (), hd.adopt { hd.dm with svc := svc, cur := n, read := hd.dm.touched } (n.links.length - 1))

/-- One call. mod/dagmodifier.go:90-525. -/
def step (env : Env) (kp : Nat → Nat) (hd : HDM) : MOp → MRes × HDM
  | .write b => let r := hd.write env kp b; (.num r.1, r.2)
  | .writeAt b off => let r := hd.writeAt env kp b off.toInt; (.num r.1, r.2)
  | .read k => let r := hd.readN env kp k; ({ n := r.1.bytes.length, bytes := r.1.bytes, err := r.1.err }, r.2)
  | .seek off wh => let r := hd.seek env kp off.toInt wh; (.num r.1, r.2)
  | .truncate s => let r := hd.truncate env kp s.toInt; (.unit r.1, r.2)
  | .sync => let r := hd.sync env kp; (.unit r.1, r.2)
  | .getNode => match hd.getNode env kp with
    | (.ok n, hd) => ({ node := some n }, hd)
    | (.error e, hd) => ({ err := some e }, hd)
  | .size => (.num hd.dm.size, hd)
  | .hasChanges => ({ n := if hd.dm.hasChanges then 1 else 0 }, hd)

/-- The state after a history of calls. mod/dagmodifier.go:90-525. -/
def after (env : Env) (kp : Nat → Nat) : HDM → List MOp → HDM
  | hd, [] => hd
  | hd, op :: ops => after env kp (hd.step env kp op).2 ops

/-- What the client sees in the nodes it holds, in the order in which it got them.
mod/dagmodifier.go:79, 441. -/
def views (hd : HDM) : List Node := hd.held.map (Obj.view hd.heap)

end HDM
end Unixfs.Mod
