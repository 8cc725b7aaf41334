import Verif.Dir.Directory
import Verif.Reader.DagReader

/-!
# `/repo/file/unixfile.go`: opening a node, and the iterator over a directory

`Entries` starts a goroutine that runs `ForEachLink` and sends the links to a buffered channel; the
client's calls of `Next` receive from it and from a second channel, which carries the error of
`ForEachLink`. The two goroutines, the channels and the cancellation of the context are a transition
system here.

`ForEachLink` calls its function once per link, in an order that does not depend on the function, until
the function fails (`File.forEach_stop`). So the links it goes through, `ls`, and its own error, `fin`
(of a fetch, say), are parameters of the system.

The client's fetches go through the oracle `Net`; as it is arbitrary, it covers a cancelled context.
-/

namespace Unixfs.File
open Unixfs.Hamt Unixfs.Dir

/-- The `files.Node`s that `NewUnixfsFile` makes. file/unixfile.go:19-24, 125-127, 154-180. -/
inductive FileNode where
  /-- unixfile.go:20-25 `ufsDirectory`: the directory and its size. -/
  | dir (d : Dir) (size : Int)
  /-- go-ipfs-files `NewLinkFile`: the target. -/
  | symlink (target : Bytes)
  /-- unixfile.go:129-131 `ufsFile`. -/
  | file (dr : DR)

/-- unixfile.go:137-155 `newUnixfsDir`. The conversion `int64(uint64)` wraps. -/
def newUnixfsDir (nd : Node) : Except Err FileNode :=
  match newDirectoryFromNode nd with
  | .error e => .error e
  | .ok d => .ok (.dir d (i64 nd.size.toNat))

/-- unixfile.go:158-186 `NewUnixfsFile`. -/
def newUnixfsFile (net : Net) (t : Nat) : Node → Except Err FileNode
  | .proto d ls b =>
    match FSNode.fromBytes d with
    | .error e => .error e
    | .ok fsn =>
      if fsn.isDir then newUnixfsDir (.proto d ls b)
      else if fsn.type = TSymlink then .ok (.symlink fsn.data)
      else open_ (.proto d ls b)
  | .raw d b => open_ (.raw d b)
  | .other _ => .error (.dir "unknown node type")
where
  /-- unixfile.go:178-185. -/
  open_ (nd : Node) : Except Err FileNode :=
    match newDagReader net t nd with
    | .error e => .error e
    | .ok dr => .ok (.file dr)

/-- unixfile.go:125-127 and 133-135 `Size`. -/
def FileNode.size : FileNode → Option Int
  | .dir _ s => some s
  | .file dr => some (i64 dr.size.toNat)
  | .symlink t => some t.length

/-- unixfile.go:18 `prefetchFiles`. -/
def prefetchFiles : Nat := 4

/-- Where the goroutine of `Entries` (unixfile.go:102-117) is. -/
inductive Prod where
  /-- In `ForEachLink`. -/
  | each
  /-- `ForEachLink` has returned this. -/
  | ret (e : Option Err)
  /-- It has been sent to `errCh`. -/
  | sent
  /-- `errCh` has been closed. -/
  | closedErr
  /-- `fileCh` has been closed; the goroutine has ended. -/
  | done

/-- Where the client is. The caller of `Next`, file/unixfile.go:46-83. -/
inductive Cons where
  /-- Not in `Next`. -/
  | idle
  /-- In the loop of `Next` (unixfile.go:52-69). -/
  | loop
  /-- `Next` has received this link (unixfile.go:71). -/
  | got (l : Link)

/-- What `Next` returned: the entry it moved to, or `false` and what `Err` then says.
file/unixfile.go:46-87. -/
inductive NextRes where
  | yes (name : Bytes) (f : FileNode)
  | no (e : Option Err)

/-- unixfile.go:27-37 `ufsIterator`, its producer and the channels. -/
structure It where
  /-- The links that `ForEachLink` has not passed to its function yet. -/
  todo : List Link
  /-- What `ForEachLink` returns after the last of them. -/
  fin : Option Err
  prod : Prod
  /-- The contents of `fileCh`. -/
  buf : List Link
  fileClosed : Bool
  /-- The contents of `errCh`, which has room for one error. -/
  errBuf : Option (Option Err)
  errClosed : Bool
  /-- `it.files == nil`. -/
  filesNil : Bool
  /-- `it.errCh == nil`. -/
  errNil : Bool
  /-- `it.err`. -/
  err : Option Err
  cons : Cons
  /-- Fetches of the client so far. -/
  t : Nat
  cancelled : Bool
  /-- The results of the calls of `Next` that have returned, the last one first. -/
  log : List NextRes

/-- unixfile.go:99-101, 119-124: after `Entries`. -/
def It.start (ls : List Link) (fin : Option Err) : It :=
  { todo := ls, fin := fin, prod := .each, buf := [], fileClosed := false, errBuf := none, errClosed := false, filesNil := false, errNil := false,
    err := none, cons := .idle, t := 0, cancelled := false, log := [] }

/-- unixfile.go:71-83: the rest of `Next` after a link was received. Opening a node makes fewer fetches
than its depth. -/
def It.finish (net : Net) (g : It) (l : Link) : It :=
  if net g.t l.target then
    match newUnixfsFile net (g.t + 1) l.target with
    | .error e => { g with err := some e, cons := .idle, t := g.t + 1 + nodeDepth l.target, log := .no (some e) :: g.log }
    | .ok f => { g with err := none, cons := .idle, t := g.t + 1 + nodeDepth l.target, log := .yes l.name f :: g.log }
  else { g with err := some .notFound, cons := .idle, t := g.t + 1, log := .no (some .notFound) :: g.log }

/-- One step of the producer, or of the client inside `Next`. file/unixfile.go:46-83 and 93-119. -/
inductive It.Own (net : Net) : It → It → Prop
  /-- unixfile.go:104-111: the context is done, at the check or in the `select`; `ForEachLink` returns
  the error of its function. -/
  | prodCancel {g : It} {l : Link} {todo : List Link} (hp : g.prod = .each) (ht : g.todo = l :: todo) (hc : g.cancelled = true) :
      Own net g { g with prod := .ret (some .cancelled) }
  /-- unixfile.go:109: the link is sent. -/
  | send {g : It} {l : Link} {todo : List Link} (hp : g.prod = .each) (ht : g.todo = l :: todo) (hb : g.buf.length < prefetchFiles) :
      Own net g { g with todo := todo, buf := g.buf ++ [l] }
  /-- unixfile.go:103: `ForEachLink` is through. -/
  | prodRet {g : It} (hp : g.prod = .each) (ht : g.todo = []) : Own net g { g with prod := .ret g.fin }
  /-- unixfile.go:103. -/
  | sendErr {g : It} {e : Option Err} (hp : g.prod = .ret e) (hb : g.errBuf = none) : Own net g { g with prod := .sent, errBuf := some e }
  /-- unixfile.go:115. -/
  | closeErr {g : It} (hp : g.prod = .sent) : Own net g { g with prod := .closedErr, errClosed := true }
  /-- unixfile.go:116. -/
  | closeFiles {g : It} (hp : g.prod = .closedErr) : Own net g { g with prod := .done, fileClosed := true }
  /-- unixfile.go:53. -/
  | bothNil {g : It} (hc : g.cons = .loop) (h1 : g.filesNil = true) (h2 : g.errNil = true) :
      Own net g { g with cons := .idle, log := .no g.err :: g.log }
  /-- unixfile.go:57, with a link. -/
  | recv {g : It} {l : Link} {buf : List Link} (hc : g.cons = .loop) (h1 : g.filesNil = false) (hb : g.buf = l :: buf) :
      Own net g { g with cons := .got l, buf := buf }
  /-- unixfile.go:57-60, from the closed channel. -/
  | recvClosed {g : It} (hc : g.cons = .loop) (h1 : g.filesNil = false) (hb : g.buf = []) (hf : g.fileClosed = true) :
      Own net g { g with filesNil := true }
  /-- unixfile.go:61-67: no error. -/
  | recvNil {g : It} (hc : g.cons = .loop) (h2 : g.errNil = false) (hb : g.errBuf = some none) :
      Own net g { g with errNil := true, errBuf := none, err := none }
  /-- unixfile.go:61-67: an error. -/
  | recvErr {g : It} {x : Err} (hc : g.cons = .loop) (h2 : g.errNil = false) (hb : g.errBuf = some (some x)) :
      Own net g { g with errNil := true, errBuf := none, err := some x, cons := .idle, log := .no (some x) :: g.log }
  /-- unixfile.go:61-67, from the closed channel. -/
  | recvErrClosed {g : It} (hc : g.cons = .loop) (h2 : g.errNil = false) (hb : g.errBuf = none) (hf : g.errClosed = true) :
      Own net g { g with errNil := true, err := none }
  /-- unixfile.go:71-83. -/
  | finish {g : It} {l : Link} (hc : g.cons = .got l) : Own net g (g.finish net l)

/-- What the client can do outside of `Next`. file/unixfile.go:38-44, 85-91. -/
inductive It.Client : It → It → Prop
  /-- It calls `Next`, which returns at once after an error, unixfile.go:48. -/
  | callErr {g : It} {e : Err} (hc : g.cons = .idle) (he : g.err = some e) : Client g { g with log := .no (some e) :: g.log }
  /-- It calls `Next`. -/
  | call {g : It} (hc : g.cons = .idle) (he : g.err = none) : Client g { g with cons := .loop }
  /-- It cancels the context. -/
  | cancel {g : It} : Client g { g with cancelled := true }

/-- `n` steps, in any interleaving. file/unixfile.go:46-119. -/
inductive It.Steps (net : Net) : Nat → It → It → Prop
  | zero (g : It) : Steps net 0 g g
  | own {n : Nat} {g g' g'' : It} (h : Steps net n g g') (hs : It.Own net g' g'') : Steps net (n + 1) g g''
  | client {n : Nat} {g g' g'' : It} (h : Steps net n g g') (hs : It.Client g' g'') : Steps net (n + 1) g g''

/-- `n` steps of the producer or inside `Next`. file/unixfile.go:46-119. -/
inductive It.Owns (net : Net) : Nat → It → It → Prop
  | zero (g : It) : Owns net 0 g g
  | succ {n : Nat} {g g' g'' : It} (h : Owns net n g g') (hs : It.Own net g' g'') : Owns net (n + 1) g g''

/-- The entries that `Next` has moved to, in order. Used in specifications and proofs only. -/
def It.delivered (g : It) : List (Bytes × FileNode) := g.log.reverse.filterMap (fun r => match r with | .yes n f => some (n, f) | .no _ => none)

end Unixfs.File
