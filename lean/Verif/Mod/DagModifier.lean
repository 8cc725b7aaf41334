import Verif.Import.Fail
import Verif.Reader.DagReader
import Verif.Spec.Append

/-!
# `/repo/mod/dagmodifier.go`

The receiver `dm` is passed as a value of type `DM`; every method returns its result and the
receiver afterwards, also when it returns an error, because a caller can go on using a `DagModifier`
after an error.

Pointers. `trickle.Append`, `modifyDag` and `dagTruncate` change the node they are given in place,
and `dm.curNode` is that very node, so the model stores the changed node back into `cur` also where
the Go code discards the returned pointer (`expandSparse`) or fails half-way. A reader made by
`readPrep` keeps a pointer to `curNode`: `RD.stale` records that the node was changed under it.

Simplification: `EncodeProtobuf` sorts links by name; all links of a file DAG are unnamed and the
model does not sort.
-/

namespace Unixfs.Mod
open Unixfs Unixfs.Import

/-- Conversion `int64(u)`. As at mod/dagmodifier.go:94, 173-176, 215, 474. -/
def s64 (u : UInt64) : Int := i64 u.toNat

/-- Conversion `uint64(x)` of an `int64`. As at mod/dagmodifier.go:99, 115, 465-469. -/
def u64 (x : Int) : UInt64 := UInt64.ofInt x

/-- The outside world of a modifier: the DAG service, the splitter, the buffer size. All arbitrary.
Requests to the DAG service are numbered. mod/dagmodifier.go:33, 40-58, 64. -/
structure Env where
  /-- Does the `t`-th request, a `Get`, succeed for this node? -/
  get : Net
  /-- Does the `t`-th request, an `Add`, succeed? -/
  put : Nat → Bool
  /-- If the `t`-th request is a whole `trickle.Append`: how many of its `Add`s succeed. -/
  budget : Nat → Option Nat
  /-- What the splitter of a `trickle.Append` that failed left unread of the write buffer. -/
  unread : Nat → Bytes → Bytes := fun _ _ => []
  /-- The splitter (dagmodifier.go:44): the chunks of a buffer, then EOF or an error. -/
  split : Bytes → List Bytes × Option Err
  /-- dagmodifier.go:33 `writebufferSize`. -/
  wbuf : Nat := 2 ^ 21
  /-- The behaviour of a reader whose root node was changed in place, once it looks at that node
  again. Not modelled, hence arbitrary. -/
  odd : Nat → Res × DR

/-- The state of the DAG service: the number of requests so far and what was stored.
Field `dagserv`, mod/dagmodifier.go:41. -/
structure Svc where
  tick : Nat := 0
  stored : List Node := []

/-- `dagserv.Add`. mod/dagmodifier.go:140, 238, 276, 305, 355, 518, 587. -/
def Svc.add (env : Env) (n : Node) (s : Svc) : Except Err Unit × Svc :=
  if env.put s.tick then (.ok (), { tick := s.tick + 1, stored := s.stored ++ [n] })
  else (.error .addFailed, { s with tick := s.tick + 1 })

/-- `dagserv.Get`. mod/dagmodifier.go:226, 328, 560. -/
def Svc.get (env : Env) (n : Node) (s : Svc) : Except Err Unit × Svc :=
  (if env.get s.tick n then .ok () else .error .notFound, { s with tick := s.tick + 1 })

/-- A reader held by the modifier. Field `read`, mod/dagmodifier.go:53-54. -/
structure RD where
  dr : DR
  stale : Bool := false

/-- dagmodifier.go:40-56 `type DagModifier struct`. `wrBuf` is its unread bytes, `none` = nil. The
context and the cancel function are not modelled. -/
structure DM where
  cur : Node
  ws : UInt64 := 0
  cw : UInt64 := 0
  buf : Option Bytes := none
  pfx : Builder
  rawLeaves : Bool
  read : Option RD := none
  svc : Svc := {}

/-- `mod.ErrNotUnixfs`. mod/dagmodifier.go:23-27. -/
def notUnixfs : Err := .mod "ErrNotUnixfs"

/-- dagmodifier.go:64-87 `NewDagModifier`. -/
def newDagModifier (n : Node) : Except Err DM :=
  match n with
  | .proto d ls b => .ok { cur := .proto d ls b, pfx := { b with codec := 0x70 }, rawLeaves := decide (b.version > 0) }
  | .raw d b => .ok { cur := .raw d b, pfx := { b with codec := 0x70 }, rawLeaves := decide (b.version > 0) }
  | .other _ => .error notUnixfs

/-- dagmodifier.go:179-192 `fileSize`. -/
def fileSize (n : Node) : Except Err UInt64 :=
  match n with
  | .proto d _ _ =>
    match FSNode.fromBytes d with
    | .error e => .error e
    | .ok fs => .ok fs.fileSize
  | .raw d _ => .ok (UInt64.ofNat d.length)
  | .other _ => .error notUnixfs

/-- Chunks of a reader of `n` zero bytes split by `chunker.NewSizeSplitter(r, 4096)`, given enough
fuel (`n` is enough). mod/dagmodifier.go:122-136. -/
def zeroChunksFuel : Nat → Nat → List Bytes
  | 0, _ => []
  | fuel + 1, n => if n = 0 then [] else List.replicate (min n 4096) 0 :: zeroChunksFuel fuel (n - 4096)

/-- dagmodifier.go:121-135: the chunks of `LimitReader(zeroReader{}, n)`. -/
def zeroChunks (n : Nat) : List Bytes := zeroChunksFuel n n

namespace DM

/-- What the call of `trickle.Append` in `appendData` leaves in place of the node it is given, and the
nodes it has stored, also when it fails. mod/dagmodifier.go:360-377, importer/trickle/trickledag.go:94-154. -/
def appendLeft (env : Env) (dm : DM) (chunks : List Bytes) (fin : Option Err) : Node × List Node :=
  match dm.cur with
  | .other d => (.other d, [])
  | n =>
    match ({ maxlinks := defaultLinksPerBlock, rawLeaves := dm.rawLeaves, cidBuilder := some dm.pfx } : Params).new none chunks fin with
    | .error _ => (n, [])
    | .ok db =>
      match Trickle.appendF (chunks.length + 1) (Spec.height n + 1) n
          { { db with addBudget := env.budget dm.svc.tick } with canGet := env.get dm.svc.tick } with
      | (_, left, db') => (left, db'.added.map Built.node)

/-- dagmodifier.go:360-377 `appendData`. The bounds given to the model of `Append` are enough
(`C57_append_errors`). -/
def appendData (env : Env) (dm : DM) (chunks : List Bytes) (fin : Option Err) : Except Err Node × Svc :=
  match dm.cur with
  | .other _ => (.error notUnixfs, dm.svc)
  | n =>
    match ({ maxlinks := defaultLinksPerBlock, rawLeaves := dm.rawLeaves, cidBuilder := some dm.pfx } : Params).new none chunks fin with
    | .error e => (.error e, dm.svc)
    | .ok db =>
      match Trickle.append (chunks.length + 1) (Spec.height n + 1) n
          { { db with addBudget := env.budget dm.svc.tick } with canGet := env.get dm.svc.tick } with
      | .error e => (.error e, { tick := dm.svc.tick + 1, stored := dm.svc.stored ++ (dm.appendLeft env chunks fin).2 })
      | .ok (n', db') => (.ok n', { tick := dm.svc.tick + 1, stored := dm.svc.stored ++ db'.added.map Built.node })

/-- The reader, if any, sees `curNode` change in place.
Fields `curNode` and `read`, mod/dagmodifier.go:43, 54. -/
def touched (dm : DM) : Option RD := dm.read.map (fun r => { r with stale := true })

/-- dagmodifier.go:131-142 `expandSparse`. -/
def expandSparse (env : Env) (dm : DM) (size : Int) : Except Err Unit × DM :=
  match dm.appendData env (zeroChunks size.toNat) none with
  | (.error e, svc) =>
    (.error e, { dm with
      svc := svc
      cur := (dm.appendLeft env (zeroChunks size.toNat) none).1
      read := dm.touched })
  | (.ok n, svc) =>
    match svc.add env n with
    | (r, svc) => (r, { dm with cur := n, svc := svc, read := dm.touched })

end DM

/-- `wrBuf.Read(d[off:])` (dagmodifier.go:262, 283-299): `d` with the buffer written over it from `off`
on, and the rest of the buffer. -/
def writeInto (d : Bytes) (off : Nat) (buf : Bytes) : Bytes × Bytes :=
  (d.take off ++ buf.take (d.length - off) ++ d.drop (off + (buf.take (d.length - off)).length), buf.drop (d.length - off))

/-- The loop test of `modifyDag` holds for one of the block sizes: with no link left, indexing the
links panics. mod/dagmodifier.go:325-328. -/
def overrun : List UInt64 → UInt64 → UInt64 → Bool
  | [], _, _ => false
  | bs :: bss, cur, off => decide (cur + bs > off) || overrun bss (cur + bs) off

mutual
/-- dagmodifier.go:252-357 `modifyDag`. Returns the new key, the node as changed in place, what is
left in the buffer, and the DAG service. Slicing beyond the length is modelled as a panic. -/
def modifyDag (env : Env) : Node → UInt64 → Bytes → Svc → Except Err Node × Node × Bytes × Svc
  | .proto d [] b, off, buf, svc =>
    match FSNode.fromBytes d with
    | .error e => (.error e, .proto d [] b, buf, svc)
    | .ok fs =>
      if fs.data.length < off.toNat then (.error .panic, .proto d [] b, buf, svc)
      else
        let w := writeInto fs.data off.toNat buf
        match ({ fs with format := { fs.format with data := fs.format.data.map (fun _ => w.1) } } : FSNode).getBytes with
        | .error e => (.error e, .proto d [] b, w.2, svc)
        | .ok bytes =>
          match svc.add env (.proto bytes [] b) with
          | (.error e, svc) => (.error e, .proto d [] b, w.2, svc)
          | (.ok (), svc) => (.ok (.proto bytes [] b), .proto d [] b, w.2, svc)
  | .raw d b, off, buf, svc =>
    if d.length < off.toNat then (.error .panic, .raw d b, buf, svc)
    else
      let w := writeInto d off.toNat buf
      match svc.add env (.raw w.1 (b.withCodec Builder.rawCodec)) with
      | (.error e, svc) => (.error e, .raw d b, w.2, svc)
      | (.ok (), svc) => (.ok (.raw w.1 (b.withCodec Builder.rawCodec)), .raw d b, w.2, svc)
  | .other d, _, buf, svc => (.error notUnixfs, .other d, buf, svc)
  | .proto d (l :: ls) b, off, buf, svc =>
    match FSNode.fromBytes d with
    | .error e => (.error e, .proto d (l :: ls) b, buf, svc)
    | .ok fs =>
      match modifyLinks env fs.blockSizes (l :: ls) 0 off buf svc with
      | (some e, ls', buf, svc) => (.error e, .proto d ls' b, buf, svc)
      | (none, ls', buf, svc) =>
        match svc.add env (.proto d ls' b) with
        | (.error e, svc) => (.error e, .proto d ls' b, buf, svc)
        | (.ok (), svc) => (.ok (.proto d ls' b), .proto d ls' b, buf, svc)
/-- dagmodifier.go:324-353: the loop over the block sizes, with `cur` and `offset`. Returns the error
that ended it, the links as changed in place, what is left in the buffer, and the DAG service. -/
def modifyLinks (env : Env) : List UInt64 → List Link → UInt64 → UInt64 → Bytes → Svc → Option Err × List Link × Bytes × Svc
  | [], ls, _, _, buf, svc => (none, ls, buf, svc)
  | bs :: bss, [], cur, off, buf, svc => (if overrun (bs :: bss) cur off then some .panic else none, [], buf, svc)
  | bs :: bss, .mk nm sz child :: ls, cur, off, buf, svc =>
    if cur + bs > off then
      match svc.get env child with
      | (.error e, svc) => (some e, .mk nm sz child :: ls, buf, svc)
      | (.ok (), svc) =>
        match modifyDag env child (off - cur) buf svc with
        | (.error e, _, buf, svc) => (some e, .mk nm sz child :: ls, buf, svc)
        | (.ok k, _, buf, svc) =>
          if buf.isEmpty then (none, .mk nm sz k :: ls, buf, svc)
          else
            match modifyLinks env bss ls (cur + bs) (cur + bs) buf svc with
            | (r, ls', buf, svc) => (r, .mk nm sz k :: ls', buf, svc)
    else
      match modifyLinks env bss ls (cur + bs) off buf svc with
      | (r, ls', buf, svc) => (r, .mk nm sz child :: ls', buf, svc)
end

mutual
/-- dagmodifier.go:528-612 `dagTruncate`. The node itself is only changed after everything that can
fail in it, so on an error it is as before. Slicing beyond the length is modelled as a panic. -/
def dagTruncate (env : Env) : Node → UInt64 → Svc → Except Err Node × Svc
  | .proto d [] b, size, svc =>
    match FSNode.fromBytes d with
    | .error e => (.error e, svc)
    | .ok fs =>
      if fs.data.length < size.toNat then (.error .panic, svc)
      else (.ok (.proto (wrapData (fs.format.data.map (fun x => x.take size.toNat))) [] b), svc)
  | .raw d b, size, svc =>
    if d.length < size.toNat then (.error .panic, svc)
    else (.ok (.raw (d.take size.toNat) (b.withCodec Builder.rawCodec)), svc)
  | .other _, _, svc => (.error notUnixfs, svc)
  | .proto d (l :: ls) b, size, svc =>
    match FSNode.fromBytes d with
    | .error e => (.error e, svc)
    | .ok fs =>
      match truncLinks env (l :: ls) 0 size fs.removeAllBlockSizes [] svc with
      | (.error e, svc) => (.error e, svc)
      | (.ok (fs', kept, modified), svc) =>
        match svc.add env modified with
        | (.error e, svc) => (.error e, svc)
        | (.ok (), svc) =>
          match fs'.getBytes with
          | .error e => (.error e, svc)
          | .ok bytes => (.ok (.proto bytes (kept ++ [makeLink [] modified]) b), svc)
/-- dagmodifier.go:559-587: the loop over the links, with `cur`, the block sizes collected in `fs` and
the links passed so far. Returns the collected payload, the links before the cut and the truncated
child. Running out of links leaves `modified` nil, and `dagserv.Add` then panics. -/
def truncLinks (env : Env) : List Link → UInt64 → UInt64 → FSNode → List Link → Svc → Except Err (FSNode × List Link × Node) × Svc
  | [], _, _, _, _, svc => (.error .panic, svc)
  | .mk nm sz child :: ls, cur, size, fs, kept, svc =>
    match svc.get env child with
    | (.error e, svc) => (.error e, svc)
    | (.ok (), svc) =>
      match fileSize child with
      | .error e => (.error e, svc)
      | .ok childsize =>
        if size < cur + childsize then
          match dagTruncate env child (size - cur) svc with
          | (.error e, svc) => (.error e, svc)
          | (.ok nchild, svc) => (.ok (fs.addBlockSize (size - cur), kept, nchild), svc)
        else truncLinks env ls (cur + childsize) size (fs.addBlockSize childsize) (kept ++ [.mk nm sz child]) svc
end

namespace DM

/-- dagmodifier.go:231-247: the end of `Sync`, after `modifyDag` and `Get`. `buflen` is the length of
the buffer at the start. -/
def syncTail (env : Env) (dm : DM) (buflen : Nat) : Except Err Unit × DM :=
  let fin : DM → DM := fun dm => { dm with ws := dm.ws + UInt64.ofNat buflen, buf := none }
  if (dm.buf.getD []).isEmpty then (.ok (), fin dm)
  else
    match dm.appendData env (env.split (dm.buf.getD [])).1 (env.split (dm.buf.getD [])).2 with
    -- `dm.curNode` is now a nil interface
    | (.error e, svc) => (.error e, { dm with cur := .other [], buf := some (env.unread dm.svc.tick (dm.buf.getD [])), svc := svc })
    | (.ok n, svc) =>
      match svc.add env n with
      | (.error e, svc) => (.error e, { dm with cur := n, buf := some [], svc := svc })
      | (.ok (), svc) => (.ok (), fin { dm with cur := n, svc := svc })

/-- dagmodifier.go:220-229: `modifyDag` on the current node, then `Get` of the result. -/
def syncModify (env : Env) (dm : DM) (buflen : Nat) : Except Err Unit × DM :=
  match modifyDag env dm.cur dm.ws (dm.buf.getD []) dm.svc with
  | (.error e, n, rest, svc) => (.error e, { dm with cur := n, buf := some rest, svc := svc })
  | (.ok k, _, rest, svc) =>
    match svc.get env k with
    -- `dm.curNode` is now a nil interface
    | (.error e, svc) => (.error e, { dm with cur := .other [], buf := some rest, svc := svc })
    | (.ok (), svc) => syncTail env { dm with cur := k, buf := some rest, svc := svc } buflen

/-- dagmodifier.go:195-248 `Sync`. -/
def sync (env : Env) (dm : DM) : Except Err Unit × DM :=
  match dm.buf with
  | none => (.ok (), dm)
  | some buf =>
    let dm := { dm with read := none }
    match fileSize dm.cur with
    | .error e => (.error e, dm)
    | .ok fs =>
      if fs < dm.ws then
        match dm.expandSparse env (s64 (dm.ws - fs)) with
        | (.error e, dm) => (.error e, dm)
        | (.ok (), dm) => syncModify env dm buf.length
      else syncModify env dm buf.length

/-- dagmodifier.go:168-177 `Size`. -/
def size (dm : DM) : Except Err Int :=
  match fileSize dm.cur with
  | .error e => .error e
  | .ok fs =>
    match dm.buf with
    | none => .ok (s64 fs)
    | some buf => .ok (if i64 (buf.length + s64 dm.ws) > s64 fs then i64 (buf.length + s64 dm.ws) else s64 fs)

/-- dagmodifier.go:145-165 `Write`. (The count returned along with an error is not modelled.) -/
def write (env : Env) (dm : DM) (b : Bytes) : Except Err Int × DM :=
  let buf := dm.buf.getD [] ++ b
  let dm := { dm with read := none, buf := some buf, cw := dm.cw + UInt64.ofNat b.length }
  if buf.length > env.wbuf then
    match dm.sync env with
    | (.error e, dm) => (.error e, dm)
    | (.ok (), dm) => (.ok b.length, dm)
  else (.ok b.length, dm)

/-- dagmodifier.go:90-119 `WriteAt`. -/
def writeAt (env : Env) (dm : DM) (b : Bytes) (offset : Int) : Except Err Int × DM :=
  if offset = s64 dm.ws ∧ dm.buf.isSome then
    if b.length ≥ (dm.buf.getD []).length then { dm with buf := some [] }.write env b
    else dm.write env b
  else if u64 offset ≠ dm.cw then
    match dm.size with
    | .error e => (.error e, dm)
    | .ok size =>
      match (if offset > size then dm.expandSparse env (i64 (offset - size)) else (.ok (), dm)) with
      | (.error e, dm) => (.error e, dm)
      | (.ok (), dm) =>
        match dm.sync env with
        | (.error e, dm) => (.error e, dm)
        | (.ok (), dm) => { dm with ws := u64 offset }.write env b
  else dm.write env b

/-- dagmodifier.go:397-418: a new reader on the current root, moved to `pos` (`int64(dm.curWrOff)`).
`NewDagReader`'s and `Seek`'s fetches are requests to the DAG service. -/
def readOpen (env : Env) (dm : DM) (pos : Int) : Except Err RD × DM :=
  match newDagReader env.get dm.svc.tick dm.cur with
  | .error e => (.error e, { dm with svc := { dm.svc with tick := dm.svc.tick + 1 } })
  | .ok dr =>
    match dr.seek env.get pos 0 with
    | (r, dr) =>
      match r.err with
      | some e => (.error e, { dm with svc := { dm.svc with tick := dr.tick } })
      | none =>
        if r.n ≠ pos then (.error (.mod "ErrSeekFail"), { dm with svc := { dm.svc with tick := dr.tick } })
        else (.ok ⟨dr, false⟩, { dm with svc := { dm.svc with tick := dr.tick }, read := some ⟨dr, false⟩ })

/-- dagmodifier.go:391-421 `readPrep` after its `Sync`. -/
def readPrep (env : Env) (dm : DM) : Except Err RD × DM :=
  match dm.read with
  | some r => (.ok r, dm)
  | none => dm.readOpen env (s64 dm.cw)

/-- The reader's `CtxReadFull`. A stale reader that has visited its root goes on with the links it
read then; one that has not delivers anything that fits into the buffer.
mod/dagmodifier.go:386, 430; io/dagreader.go:161-224. -/
def readerRead (env : Env) (r : RD) (tick k : Nat) : Res × DR :=
  if r.stale ∧ r.dr.path = [] then ({ (env.odd tick).1 with bytes := (env.odd tick).1.bytes.take k }, (env.odd tick).2)
  else { r.dr with tick := tick }.read env.get k

/-- The reader's `Seek`, which looks at the root again unless it goes nowhere.
mod/dagmodifier.go:405, 481-487; io/dagreader.go:355-486. -/
def readerSeek (env : Env) (r : RD) (tick : Nat) (off whence : Int) : Res × DR :=
  if r.stale then env.odd tick
  else { r.dr with tick := tick }.seek env.get off whence

/-- Result of `Read`: the bytes delivered and the error. mod/dagmodifier.go:380-433. -/
structure Got where
  bytes : Bytes
  err : Option Err
deriving DecidableEq, Repr

/-- dagmodifier.go:380-389 `Read` and 424-433 `CtxReadFull`, with `len(b) = k`. -/
def readN (env : Env) (dm : DM) (k : Nat) : Got × DM :=
  match dm.sync env with
  | (.error e, dm) => (⟨[], some e⟩, dm)
  | (.ok (), dm) =>
    match dm.readPrep env with
    | (.error e, dm) => (⟨[], some e⟩, dm)
    | (.ok r, dm) =>
      match readerRead env r dm.svc.tick k with
      | (res, dr) =>
        (⟨res.bytes, res.err⟩, { dm with
          read := some { r with dr := dr }
          cw := dm.cw + UInt64.ofNat res.bytes.length
          svc := { dm.svc with tick := dr.tick } })

/-- dagmodifier.go:436-442 `GetNode`. -/
def getNode (env : Env) (dm : DM) : Except Err Node × DM :=
  match dm.sync env with
  | (.error e, dm) => (.error e, dm)
  | (.ok (), dm) => (.ok dm.cur, dm)

/-- dagmodifier.go:445-447 `HasChanges`. -/
def hasChanges (dm : DM) : Bool := dm.buf.isSome

/-- dagmodifier.go:462-472: the new offset. -/
def seekTo (dm : DM) (fisize : Int) (offset whence : Int) : Except Err UInt64 :=
  if whence = 1 then .ok (dm.cw + u64 offset)
  else if whence = 0 then .ok (u64 offset)
  else if whence = 2 then .ok (u64 fisize - u64 offset)
  else .error (.mod "ErrUnrecognizedWhence")

/-- dagmodifier.go:474-489: the end of `Seek`; `pos` is `int64(newoffset)`. -/
def seekTail (env : Env) (dm : DM) (fisize : Int) (new : UInt64) (pos : Int) (offset whence : Int) : Except Err Int × DM :=
  match (if pos > fisize then dm.expandSparse env (i64 (pos - fisize)) else (.ok (), dm)) with
  | (.error e, dm) => (.error e, dm)
  | (.ok (), dm) =>
    match dm.read with
    | none => (.ok pos, { dm with cw := new, ws := new })
    | some r =>
      match readerSeek env r dm.svc.tick offset whence with
      | (res, dr) =>
        ((match res.err with
          | some e => .error e
          | none => .ok pos),
         { dm with cw := new, ws := new, read := some { r with dr := dr }, svc := { dm.svc with tick := dr.tick } })

/-- dagmodifier.go:451-490 `Seek`. -/
def seek (env : Env) (dm : DM) (offset whence : Int) : Except Err Int × DM :=
  match dm.sync env with
  | (.error e, dm) => (.error e, dm)
  | (.ok (), dm) =>
    match dm.size with
    | .error e => (.error e, dm)
    | .ok fisize =>
      match dm.seekTo fisize offset whence with
      | .error e => (.error e, dm)
      | .ok new => dm.seekTail env fisize new (s64 new) offset whence

/-- dagmodifier.go:494-525 `Truncate`. -/
def truncate (env : Env) (dm : DM) (size : Int) : Except Err Unit × DM :=
  match dm.sync env with
  | (.error e, dm) => (.error e, dm)
  | (.ok (), dm) =>
    match dm.size with
    | .error e => (.error e, dm)
    | .ok realSize =>
      if size = realSize then (.ok (), dm)
      else if size > realSize then dm.expandSparse env (i64 (size - realSize))
      else
        match dagTruncate env dm.cur (u64 size) dm.svc with
        | (.error e, svc) => (.error e, { dm with svc := svc })
        | (.ok n, svc) =>
          match svc.add env n with
          -- a protobuf node was truncated in place, a raw node replaced
          | (.error e, svc) => (.error e, { dm with svc := svc
                                                    cur := if n.isProto then n else dm.cur
                                                    read := dm.touched })
          | (.ok (), svc) => (.ok (), { dm with svc := svc, cur := n, read := dm.touched })

end DM

/-- The calls a user can make on a modifier. mod/dagmodifier.go:90-525. -/
inductive MOp where
  | write (b : Bytes)
  | writeAt (b : Bytes) (off : Int64)
  | read (k : Nat)
  | seek (off : Int64) (whence : Int)
  | truncate (size : Int64)
  | sync
  | getNode
  | size
  | hasChanges

/-- What a call returns: a count or position or size, bytes read, a node, an error.
mod/dagmodifier.go:90-525. -/
structure MRes where
  n : Int := 0
  bytes : Bytes := []
  node : Option Node := none
  err : Option Err := none
deriving DecidableEq, Repr

/-- Result of a call that returns a number. mod/dagmodifier.go:90, 145, 168, 451. -/
def MRes.num : Except Err Int → MRes
  | .ok n => { n := n }
  | .error e => { err := some e }

/-- Result of a call that returns only an error. mod/dagmodifier.go:195, 494. -/
def MRes.unit : Except Err Unit → MRes
  | .ok () => {}
  | .error e => { err := some e }

/-- One call. mod/dagmodifier.go:90-525. -/
def DM.step (env : Env) (dm : DM) : MOp → MRes × DM
  | .write b => let r := dm.write env b; (.num r.1, r.2)
  | .writeAt b off => let r := dm.writeAt env b off.toInt; (.num r.1, r.2)
  | .read k => let r := dm.readN env k; ({ n := r.1.bytes.length, bytes := r.1.bytes, err := r.1.err }, r.2)
  | .seek off wh => let r := dm.seek env off.toInt wh; (.num r.1, r.2)
  | .truncate s => let r := dm.truncate env s.toInt; (.unit r.1, r.2)
  | .sync => let r := dm.sync env; (.unit r.1, r.2)
  | .getNode => match dm.getNode env with
    | (.ok n, dm) => ({ node := some n }, dm)
    | (.error e, dm) => ({ err := some e }, dm)
  | .size => (.num dm.size, dm)
  | .hasChanges => ({ n := if dm.hasChanges then 1 else 0 }, dm)

/-- A history of calls. mod/dagmodifier.go:90-525. -/
def DM.run (env : Env) : DM → List MOp → List MRes × DM
  | dm, [] => ([], dm)
  | dm, op :: ops =>
    let r := dm.step env op
    let rs := DM.run env r.2 ops
    (r.1 :: rs.1, rs.2)

end Unixfs.Mod
