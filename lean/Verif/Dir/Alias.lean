import Verif.Spec.Dir

/-!
# `/repo/io/directory.go`, with the links of nodes as slices in memory

`BasicDirectory.GetNode` (directory.go:332-334) returns the directory's own node, and
`BasicDirectory.Links` (292-294) the slice of links of that node; `ForEachLink` (282-289) ranges over
that slice. go-merkledag v0.5.1 `RemoveNodeLink` filters the slice in place (`ref := n.links[:0]`),
`AddRawLink` appends to it, and encoding a node sorts it in place. So what a client holds can change
with later calls.

`World` is the client of `Spec/Dir.lean` with the memory: the arrays under slices of links, the
`ProtoNode`s, and what the client holds. The calls do to the directory what `Dir/Directory.lean` says
(`exec`); here is what they do to the memory.

Simplifications: the links themselves are values (no call changes a link that a directory has given
out; `AddRawLink` makes new ones). The nodes and lists that a `HAMTDirectory` returns are made anew by
each call (hamt.go:187-233, 390-402). The CID and the bytes that a `ProtoNode` caches are not modelled.
-/

namespace Unixfs.Dir
open Unixfs.Hamt

/-- A Go slice of links: the array under it, from its beginning, and the length. directory.go:293. -/
structure Slice where
  arr : Nat
  len : Nat
deriving DecidableEq

/-- A `*ProtoNode`; directory.go:100, 332-334. -/
structure PNode where
  data : Bytes
  sl : Slice
  builder : Builder

/-- What a client can hold: a node from `GetNode`, a slice from `Links`. directory.go:292-294, 332-334. -/
inductive Held where
  | node (o : Nat)
  | links (s : Slice)

/-- What the client sees in it. directory.go:292-294, 332-334. -/
inductive Seen where
  | node (n : Node)
  | links (ls : List Link)
deriving DecidableEq

/-- The client, the memory, and what the client holds. `me`: the node of the directory, if it is a
`BasicDirectory` (directory.go:100). The length of an array is the capacity of the slices of it. -/
structure World where
  c : Cfg
  me : Nat
  objs : Nat → PNode
  arrs : Nat → List Link
  nextObj : Nat
  nextArr : Nat
  held : List Held

namespace World

/-- The links of a slice. directory.go:283, 293. -/
def read (w : World) (s : Slice) : List Link := (w.arrs s.arr).take s.len

/-- What the client sees now. directory.go:292-294, 332-334. -/
def view (w : World) : Held → Seen
  | .node o => .node (.proto (w.objs o).data (w.read (w.objs o).sl) (w.objs o).builder)
  | .links s => .links (w.read s)

/-- Everything that the client holds, as it is now. directory.go:292-294, 332-334. -/
def views (w : World) : List Seen := w.held.map w.view

/-- A write to an array. Dependency go-merkledag, reached from directory.go:253, 326. -/
def setArr (w : World) (a : Nat) (ls : List Link) : World := { w with arrs := fun i => if i = a then ls else w.arrs i }

/-- A write to a node. Dependency go-merkledag, reached from directory.go:208, 253, 326. -/
def setObj (w : World) (o : Nat) (p : PNode) : World := { w with objs := fun i => if i = o then p else w.objs i }

/-- The slice of the directory's node. directory.go:100. -/
def sl (w : World) : Slice := (w.objs w.me).sl

/-- The node of the directory gets another slice. Dependency go-merkledag, reached from directory.go:253, 326. -/
def setSl (w : World) (s : Slice) : World := w.setObj w.me { w.objs w.me with sl := s }

/-- go-merkledag v0.5.1 `ProtoNode.RemoveNodeLink`, called at directory.go:326: filters in place, and the
rest of the array stays as it was. -/
def removeLink (w : World) (name : Bytes) : World :=
  let ref := (w.read w.sl).filter (fun l => l.name ≠ name)
  (w.setArr w.sl.arr (ref ++ (w.arrs w.sl.arr).drop ref.length)).setSl ⟨w.sl.arr, ref.length⟩

/-- A new array with these links and room for `room` more. Go's `append` and `make`, directory.go:169, 253. -/
def newArr (w : World) (ls : List Link) (room : Nat) : World × Slice :=
  ({ w.setArr w.nextArr (ls ++ List.replicate room (.mk [] 0 (.other []))) with nextArr := w.nextArr + 1 }, ⟨w.nextArr, ls.length⟩)

/-- go-merkledag v0.5.1 `ProtoNode.AddRawLink`, called at directory.go:253: `append`. `room n`: what Go
adds to the capacity of a slice of `n` when it has to grow. -/
def addLink (room : Nat → Nat) (w : World) (l : Link) : World :=
  if w.sl.len < (w.arrs w.sl.arr).length then
    (w.setArr w.sl.arr ((w.arrs w.sl.arr).set w.sl.len l)).setSl ⟨w.sl.arr, w.sl.len + 1⟩
  else
    let r := w.newArr (w.read w.sl ++ [l]) (room w.sl.len)
    r.1.setSl r.2

/-- A new `ProtoNode`. directory.go:124-126, 169; hamt.go:187-233. -/
def newObj (w : World) (data : Bytes) (ls : List Link) (builder : Builder) (room : Nat) : World × Nat :=
  let r := w.newArr ls room
  ({ r.1.setObj w.nextObj ⟨data, r.2, builder⟩ with nextObj := w.nextObj + 1 }, w.nextObj)

/-- The directory continues with a new `BasicDirectory`. directory.go:128-137, 169, 433-455. -/
def fresh (w : World) (b : Basic) (room : Nat) : World :=
  let r := w.newObj b.data b.links b.builder room
  { r.1 with me := r.2 }

/-- What a call does to the memory, if it has succeeded: from the directory `d` to the directory `d'`.
A switch to a HAMT leaves the old node alone (directory.go:342-361, 584-596); a switch back makes a new
one (433-455); `NewDirectoryFromNode` copies (169). -/
def effect (room : Nat → Nat) (w : World) (op : DOp) (d d' : Dir) : World :=
  match d, d' with
  | .basic b, .basic b' =>
    match op with
    | .add name nd =>
      let w' := if (b.getNodeLink name).isSome then w.removeLink name else w
      w'.addLink room (.mk name nd.size nd)
    | .remove name => w.removeLink name
    | .setCidBuilder _ => w.setObj w.me { w.objs w.me with builder := b'.builder }
    | .reload => w.fresh b' (room b'.links.length)
    | _ => w
  | .hamt _, .basic b' => w.fresh b' (room b'.links.length)
  | _, .hamt _ => w

/-- What the client gets to hold. directory.go:292-294, 332-334, 394-396, 423-425. -/
def hold (w : World) (op : DOp) (r : DRes) : World :=
  match op, r with
  | .getNode, .node (.proto d ls b) =>
    match w.c.dir with
    | .basic _ => { w with held := w.held ++ [.node w.me] }
    | .hamt _ =>
      let r := w.newObj d ls b 0
      { r.1 with held := w.held ++ [.node r.2] }
  | .links, .list ls _ =>
    match w.c.dir with
    | .basic _ => { w with held := w.held ++ [.links w.sl] }
    | .hamt _ =>
      let r := w.newArr ls 0
      { r.1 with held := w.held ++ [.links r.2] }
  | _, _ => w

/-- A call on the directory. directory.go:46-83. -/
def call (env : Env) (room : Nat → Nat) (w : World) (op : DOp) : World :=
  match exec env op w.c with
  | (.fail _, c') => { w with c := c' }
  | (r, c') => { (w.effect room op w.c.dir c'.dir) with c := c' }.hold op r

/-- The order in which a node is encoded: by name, links with the same name as they were (`sort.Stable`). Dependency go-merkledag v0.5.1
`EncodeProtobuf`, reached from directory.go:214 and by `Cid`, `RawData` and `Size` of a node. -/
def sorted : List Link → List Link
  | [] => []
  | l :: ls => insert l (sorted ls)
where
  /-- Before the first link with this name or a greater one; as for `sorted`. -/
  insert (l : Link) : List Link → List Link
    | [] => [l]
    | x :: xs => if NameLt x.name l.name then x :: insert l xs else l :: x :: xs

/-- The client asks a node that it holds for its CID, size or bytes, or stores it: the links are sorted in
place. Dependency go-merkledag v0.5.1 `EncodeProtobuf`, as for `sorted`. -/
def encode (w : World) (k : Nat) : World :=
  match w.held[k]? with
  | some (.node o) =>
    let s := (w.objs o).sl
    let w' := w.setArr s.arr (sorted (w.read s) ++ (w.arrs s.arr).drop s.len)
    match w.c.dir with
    | .basic b => if o = w.me then { w' with c := { w.c with dir := .basic { b with links := sorted b.links } } } else w'
    | .hamt _ => w'
  | _ => w

end World

/-- What a client does: a call on the directory (directory.go:46-83), or encoding the `k`-th thing it holds. -/
inductive AOp where
  | call (op : DOp)
  | encode (k : Nat)

namespace World

/-- One of these. directory.go:46-83. -/
def step (env : Env) (room : Nat → Nat) (w : World) : AOp → World
  | .call op => w.call env room op
  | .encode k => w.encode k

/-- The state after a history. directory.go:46-83. -/
def after (env : Env) (room : Nat → Nat) : World → List AOp → World
  | w, [] => w
  | w, op :: ops => after env room (w.step env room op) ops

/-- directory.go:143-145 `NewDirectory`. -/
def new (thr : Int) : World where
  c := start newDirectory thr
  me := 0
  objs := fun _ => ⟨Basic.empty.data, ⟨0, 0⟩, Basic.empty.builder⟩
  arrs := fun _ => []
  nextObj := 1
  nextArr := 1
  held := []

/-- directory.go:156-179 `NewDirectoryFromNode`. The client holds the node it has given (object 0), the
directory has a copy. -/
def fromNode (room : Nat → Nat) (n : Node) (thr : Int) : Except Err World :=
  match newDirectoryFromNode n, n with
  | .error e, _ => .error e
  | .ok dir, .proto d ls b =>
    let w : World := {
      c := start dir thr
      me := 0
      objs := fun _ => ⟨d, ⟨0, ls.length⟩, b⟩
      arrs := fun _ => ls
      nextObj := 1
      nextArr := 1
      held := [.node 0] }
    match dir with
    | .basic b => .ok (w.fresh b (room b.links.length))
    | .hamt _ => .ok w
  | .ok _, _ => .error (.dir "merkledag node was not a directory or shard")

/-- directory.go:282-289 `ForEachLink` of a `BasicDirectory`, with a function that uses the directory: at
the `i`-th link `l` it does `cb i l`, and never fails. `range` has evaluated the slice `s` once; the links
are read as the loop comes to them. The links given to the function, and the state afterwards. -/
def each (env : Env) (room : Nat → Nat) (cb : Nat → Link → List AOp) (s : Slice) : Nat → Nat → World → List Link × World
  | 0, _, w => ([], w)
  | n + 1, i, w =>
    match (w.read s)[i]? with
    | none => ([], w)
    | some l =>
      match each env room cb s n (i + 1) (w.after env room (cb i l)) with
      | (ls, w') => (l :: ls, w')

/-- The loop over the links of the directory. directory.go:282-289. -/
def forEachDo (env : Env) (room : Nat → Nat) (cb : Nat → Link → List AOp) (w : World) : List Link × World :=
  each env room cb w.sl w.sl.len 0 w

end World
end Unixfs.Dir
