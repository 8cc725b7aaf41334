import Verif.Reader.Walker

/-!
# `/repo/io/dagreader.go`
-/

namespace Unixfs

/-- Wrap-around of Go `int64` arithmetic. As at io/dagreader.go:476, 481. -/
def i64 (x : Int) : Int := Int.bmod x (2 ^ 64)

/-- dagreader.go:111-144 `dagReader`. `cur` is the unread part of the `bytes.Reader` in
`currentNodeData` (its already read part is never looked at). `tick` counts the fetches so far and
is not in the Go struct. The context and the node getter are the oracle `Net`. -/
structure DR where
  root : Node
  size : UInt64
  path : List Frame
  cur : Option Bytes
  offset : Int
  tick : Nat
deriving DecidableEq, Repr

mutual
/-- dagreader.go:55-108 `NewDagReader`. The only fetch it makes is the child of a metadata node. -/
def newDagReader (net : Net) (t : Nat) : Node → Except Err DR
  | .raw d b => .ok { root := .raw d b, size := UInt64.ofNat d.length, path := [], cur := none, offset := 0, tick := t }
  | .proto d ls b =>
    match FSNode.fromBytes d with
    | .error e => .error e
    | .ok fs =>
      if fs.type = TFile ∨ fs.type = TRaw then
        .ok { root := .proto d ls b, size := fs.fileSize, path := [], cur := none, offset := 0, tick := t }
      else if fs.type = TDirectory ∨ fs.type = THAMTShard then .error .isDir
      else if fs.type = TMetadata then newDagReaderMeta net t ls
      else if fs.type = TSymlink then .error .cantReadSymlinks
      else .error .unrecognizedType
  | .other _ => .error .unrecognizedType
/-- dagreader.go:80-93: the `TMetadata` case. -/
def newDagReaderMeta (net : Net) (t : Nat) : List Link → Except Err DR
  | [] => .error .incorrectlyFormatted
  | .mk _ _ child :: _ =>
    if net t child then
      if child.isProto then newDagReader net (t + 1) child else .error .notProtobuf
    else .error .notFound
end

/-- The variables captured by the closures in `CtxReadFull` and `WriteTo`: the reader's
`currentNodeData` and `offset`, and the bytes delivered so far (`out[:n]`, or what went to the
writer). `space` is `len(out) - n`. io/dagreader.go:161-224. -/
structure RS where
  cur : Option Bytes
  offset : Int
  out : Bytes
  space : Nat
deriving DecidableEq, Repr

/-- dagreader.go:239-259 `readNodeDataBuffer(out[n:])`. `cur` is non-nil at every call. -/
def RS.readBuf (s : RS) : RS :=
  let d := s.cur.getD []
  let got := d.take s.space
  { cur := if d.drop s.space = [] then none else some (d.drop s.space),
    offset := i64 (s.offset + got.length),
    out := s.out ++ got,
    space := s.space - got.length }

/-- dagreader.go:182-211 (with `saveNodeData`, 226-234): the visitor of `CtxReadFull`. -/
def readVisitor : Visitor RS := fun node s =>
  if node.links ≠ [] then (.cont, 0, s)
  else match readUnixFSNodeData node with
    | .error e => (.fail e, 0, s)
    | .ok d =>
      let s' := RS.readBuf { s with cur := some d }
      (if s'.space = 0 then .pause else .cont, 0, s')

/-- Results of `Read`, `WriteTo` (bytes delivered, error) and `Seek` (`n`, error).
io/dagreader.go:153, 290, 355. -/
structure Res where
  bytes : Bytes := []
  n : Int := 0
  err : Option Err := none
deriving DecidableEq, Repr

/-- dagreader.go:161-222 `CtxReadFull` (and `Read`, 153-155) with `len(out) = k`. -/
def DR.read (net : Net) (dr : DR) (k : Nat) : Res × DR :=
  let s0 : RS := { cur := dr.cur, offset := dr.offset, out := [], space := k }
  let s := if dr.cur.isSome then s0.readBuf else s0
  if dr.cur.isSome ∧ s.space = 0 then
    ({ bytes := s.out, n := s.out.length }, { dr with cur := s.cur, offset := s.offset })
  else
    match iterate net dr.root readVisitor (walkFuel dr.root) { path := dr.path, tick := dr.tick, s := s } with
    | (r, w) =>
      ({ bytes := w.s.out, n := w.s.out.length,
         err := match r with
           | .paused => none
           | .endOfDag => some .eof
           | .err e => some e },
       { dr with path := w.path, tick := w.tick, cur := w.s.cur, offset := w.s.offset })

/-- An `io.Writer`: `w i = none` if the `i`-th `Write` accepts everything, `some m` if it accepts at
most `m` bytes and fails. The argument of `WriteTo`, io/dagreader.go:290. -/
abbrev Writer := Nat → Option Nat

/-- The variables captured by the closure in `WriteTo`; `calls` counts the `Write` calls.
io/dagreader.go:290-338. -/
structure TS where
  cur : Option Bytes
  offset : Int
  out : Bytes
  calls : Nat
deriving DecidableEq, Repr

/-- dagreader.go:265-281 `writeNodeDataBuffer` with `bytes.Reader.WriteTo`, which does not call
`Write` when nothing is left. When the writer fails, the buffer has advanced but `offset` has not.
`true`: success. -/
def TS.writeBuf (w : Writer) (s : TS) : Bool × TS :=
  let d := s.cur.getD []
  if d = [] then (true, { s with cur := none })
  else match w s.calls with
    | none => (true, { cur := none, offset := i64 (s.offset + d.length), out := s.out ++ d, calls := s.calls + 1 })
    | some m => (false, { s with cur := some (d.drop m), out := s.out ++ d.take m, calls := s.calls + 1 })

/-- dagreader.go:307-330: the visitor of `WriteTo`. -/
def writeVisitor (w : Writer) : Visitor TS := fun node s =>
  if node.links ≠ [] then (.cont, 0, s)
  else match readUnixFSNodeData node with
    | .error e => (.fail e, 0, s)
    | .ok d =>
      match TS.writeBuf w { s with cur := some d } with
      | (true, s') => (.cont, 0, s')
      | (false, s') => (.fail .writeFailed, 0, s')

/-- dagreader.go:290-338 `WriteTo`. -/
def DR.writeTo (net : Net) (dr : DR) (w : Writer) : Res × DR :=
  let s0 : TS := { cur := dr.cur, offset := dr.offset, out := [], calls := 0 }
  match (if dr.cur.isSome then s0.writeBuf w else (true, s0)) with
  | (false, s) => ({ bytes := s.out, n := s.out.length, err := some .writeFailed }, { dr with cur := s.cur, offset := s.offset })
  | (true, s) =>
    match iterate net dr.root (writeVisitor w) (walkFuel dr.root) { path := dr.path, tick := dr.tick, s := s } with
    | (r, x) =>
      ({ bytes := x.s.out, n := x.s.out.length,
         err := match r with
           | .paused => none
           | .endOfDag => none
           | .err e => some e },
       { dr with path := x.path, tick := x.tick, cur := x.s.cur, offset := x.s.offset })

/-- The variables captured by the closure in `Seek`: the bytes left to skip and `currentNodeData`.
io/dagreader.go:355-462. -/
structure SS where
  left : Nat
  cur : Option Bytes
deriving DecidableEq, Repr

/-- dagreader.go:414-437: the loop over the children of an internal node. `bs` are the recorded
sizes, `i` the active child index, `k` the number of links after it, `left` what is left to skip.
`fsNode.BlockSize(i)` (unixfs.go:271-273) panics when the index is out of range. `NextChild` moves
to `i + 1` and returns `ErrNextNoChild` when no link is left, which ends the loop. `left` is never
negative and at most the offset, an `int64`, so that the conversions at 416 and 423 are exact. -/
def skipLoop (bs : List UInt64) : Nat → Nat → Nat → Except Err (Nat × Nat)
  | k, i, left =>
    match bs[i]? with
    | none => .error .panic
    | some s =>
      if s.toNat > left then .ok (i, left)
      else match k with
        | 0 => .ok (i + 1, left - s.toNat)
        | k + 1 => skipLoop bs k (i + 1) (left - s.toNat)

/-- dagreader.go:393-462: the visitor of `Seek`. -/
def seekVisitor : Visitor SS := fun node s =>
  if node.links ≠ [] then
    match extractFSNode node with
    | .error e => (.fail e, 0, s)
    | .ok fs =>
      if fs.numChildren ≠ node.links.length then (.fail .seekNotSupported, 0, s)
      else
        match skipLoop fs.blockSizes (node.links.length - 1) 0 s.left with
        | .error e => (.fail e, 0, s)
        | .ok (i, left) => (.cont, i, { s with left := left })
  else match readUnixFSNodeData node with
    | .error e => (.fail e, 0, s)
    | .ok d => (.cont, 0, { s with cur := some (d.drop s.left) })

/-- dagreader.go:357-469: `Seek` with `io.SeekStart`. -/
def DR.seekStart (net : Net) (dr : DR) (off : Int) : Res × DR :=
  if off < 0 then ({ n := dr.offset, err := some .invalidOffset }, dr)
  else if off = dr.offset then ({ n := off }, dr)
  else
    -- resetPosition, dagreader.go:491-499
    let dr0 : DR := { dr with cur := none, offset := 0, path := [] }
    if off = 0 then ({ n := 0 }, dr0)
    else
      match walkSeek net dr.root seekVisitor (walkFuel dr.root)
          { path := [], tick := dr.tick, s := { left := off.toNat, cur := none } } with
      | (some e, w) => ({ n := 0, err := some e }, { dr0 with path := w.path, tick := w.tick, cur := w.s.cur })
      | (none, w) => ({ n := off }, { dr0 with path := w.path, tick := w.tick, cur := w.s.cur, offset := off })

/-- dagreader.go:355-486 `Seek`. -/
def DR.seek (net : Net) (dr : DR) (off : Int) (whence : Int) : Res × DR :=
  if whence = 0 then dr.seekStart net off
  else if whence = 1 then
    if off = 0 then ({ n := dr.offset }, dr) else dr.seekStart net (i64 (dr.offset + off))
  else if whence = 2 then dr.seekStart net (i64 (i64 dr.size.toNat + off))
  else ({ n := 0, err := some .badWhence }, dr)

/-- The calls a user can make on a reader. io/dagreader.go:153, 290, 355. -/
inductive ROp where
  | read (k : Nat)
  | seek (off : Int64) (whence : Int)
  | writeTo (w : Writer)

/-- One call, io/dagreader.go:153-486. -/
def DR.step (net : Net) (dr : DR) : ROp → Res × DR
  | .read k => dr.read net k
  | .seek off whence => dr.seek net off.toInt whence
  | .writeTo w => dr.writeTo net w

/-- A history of calls: the result of each, and the final reader. io/dagreader.go:153-486. -/
def DR.run (net : Net) : DR → List ROp → List Res × DR
  | dr, [] => ([], dr)
  | dr, op :: ops =>
    match dr.step net op with
    | (r, dr') => match DR.run net dr' ops with
      | (rs, dr'') => (r :: rs, dr'')

end Unixfs
