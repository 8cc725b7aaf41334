import Verif.Hamt.Shard

/-!
# `/repo/hamt/hamt.go`: the parallel walk behind `EnumLinks` and `EnumLinksAsync`

A labelled transition system: the goroutine of `EnumLinksAsync`, which runs the dispatcher of
`parallelShardWalk`, `n` workers (32 in the code), and the consumer of the result channel. Channels
are unbuffered, so a send and its receive are one step. A `select` is a choice among its enabled
cases. A context being done is stable, and enables, but does not force, the `Done` cases.

Simplifications:
* The derived context of the error group is done as soon as the caller's context is, or an error has
  been recorded; a delay between the two only disables cases.
* `emitResult` (hamt.go:608-622) first polls `ctx.Done()`; here a send stays possible after
  cancellation until the receiver is gone, which allows more behaviours than the code has.
* `GetMany` delivers the requested nodes in any order, each once. It may deliver an error when one of
  the outstanding nodes is unavailable, or its context is done; workers return at the first error.
* The shards that are walked are not modified during the walk.
-/

namespace Unixfs.Hamt

/-- hamt.go:434-437 `listCidsAndShards`. A CID is identified with its node. -/
structure Frontier where
  cids : List Node
  shards : List Shard

/-- hamt.go:442-481, the loop of `walkChildren` over the positions: the links passed to the callback,
and the result. -/
def walkSlots (size : Nat) : List Slot → Frontier → List Link × Except Err Frontier
  | [], r => ([], .ok r)
  | .link l :: ss, r =>
    match childLinkType size l with
    | .error e => ([], .error e)
    | .ok .shardValueLink =>
      match makeShardValue size l with
      | .error e => ([], .error e)
      | .ok sv => (Link.rename (sv.val.getD (.mk [] 0 default)) sv.key :: (walkSlots size ss r).1, (walkSlots size ss r).2)
    | .ok .shardLink => walkSlots size ss { r with cids := r.cids ++ [l.target] }
  | .child c :: ss, r =>
    match c.val with
    | some l => (.mk c.key l.tsize l.target :: (walkSlots size ss r).1, (walkSlots size ss r).2)
    | none => walkSlots size ss { r with shards := r.shards ++ [c] }

/-- hamt.go:439-483 `walkChildren`. -/
def Shard.walkChildren (s : Shard) : List Link × Except Err Frontier := walkSlots s.size s.slots ⟨[], []⟩

/-- Where a worker goes on after it has sent the children of a shard: the loop hamt.go:510-521 over
loaded shards (then the CIDs), or the loop 537-557 over the nodes from `GetMany`. -/
inductive Cont where
  | shards (ss : List Shard) (cs : List Node)
  | many (pend : List Node)

/-- Where a worker is. hamt/hamt.go:507-560. -/
inductive Worker where
  /-- hamt.go:509: waits for `feed`. -/
  | idle
  /-- hamt.go:510: the loaded shards left to walk; the CIDs after them. -/
  | shards (ss : List Shard) (cs : List Node)
  /-- In `walkChildren`: the links left to emit, its result. -/
  | emit (vs : List Link) (r : Except Err Frontier) (k : Cont)
  /-- hamt.go:516-520, 552-556: sends the children. -/
  | out (l : Frontier) (k : Cont)
  /-- hamt.go:523-534: asks the visit set; the CIDs still to ask for, those to fetch. -/
  | visit (cs acc : List Node)
  /-- hamt.go:536-537: waits for a node from `GetMany`. -/
  | many (pend : List Node)
  /-- hamt.go:559-562: reports that the batch is finished. -/
  | done
  /-- Has returned. -/
  | exit

/-- hamt/hamt.go:505-560. -/
def Cont.resume : Cont → Worker
  | .shards ss cs => .shards ss cs
  | .many pend => .many pend

/-- Where the goroutine of `EnumLinksAsync` is. hamt/hamt.go:416-431 and 562-606. -/
inductive Main where
  /-- hamt.go:568-603, the dispatcher: `next`, `todoQueue`, `inProgress`. `send` is nil iff `next` is. -/
  | loop (next : Option Frontier) (todo : List Frontier) (inProgress : Int)
  /-- hamt.go:604-605: `feed` is closed, waits for the workers. -/
  | waiting
  /-- hamt.go:428: emits the error of the walk. -/
  | emitErr (e : Err)
  /-- The result channel is closed. -/
  | closed

/-- hamt.go:593-599: the dispatcher receives children. -/
def Main.push (next : Option Frontier) (todo : List Frontier) (inProgress : Int) (l : Frontier) : Main :=
  match next with
  | none => .loop (some l) todo inProgress
  | some x => .loop (some x) (todo ++ [l]) inProgress

/-- How the consumer stopped reading.
The reader of the channel returned at hamt/hamt.go:416-431; io/directory.go:509-540. -/
inductive Ret where
  /-- It received an error. -/
  | err (e : Err)
  /-- The channel was closed: the enumeration ended without an error. -/
  | ended
  /-- It had seen enough, cancelled the context and left. -/
  | stopped
deriving DecidableEq, Repr

/-- The goroutines and channels of hamt/hamt.go:416-431 and 492-606. -/
structure Walk where
  main : Main
  workers : List Worker
  /-- hamt.go:496 `visitSet`. -/
  visited : List Node
  /-- The first error returned by a worker (`errgroup`). -/
  gerr : Option Err
  /-- The context of the walk is done. -/
  cancelled : Bool
  /-- What the consumer has received. -/
  got : List Link
  ret : Option Ret

/-- The error group's context is done. hamt/hamt.go:498. -/
def Walk.stopped (g : Walk) : Prop := g.cancelled = true ∨ g.gerr.isSome = true

/-- hamt.go:493-574: all workers wait; the dispatcher has the root to send. -/
def Walk.start (n : Nat) (root : Shard) : Walk :=
  { main := .loop (some ⟨[], [root]⟩) [] 0, workers := List.replicate n .idle, visited := [], gerr := none, cancelled := false, got := [], ret := none }

/-- A worker returns an error: `errgroup` keeps the first one. hamt/hamt.go:505-560, `grp.Go`. -/
def Walk.fail (g : Walk) (i : Nat) (e : Err) : Walk := { g with workers := g.workers.set i .exit, gerr := g.gerr.or (some e) }

/-- hamt/hamt.go:505-560. -/
def Walk.move (g : Walk) (i : Nat) (w : Worker) : Walk := { g with workers := g.workers.set i w }

/-- The consumer receives a link. `EnumLinks` (hamt.go:390-402) never stops; `sizeBelowThreshold`
(io/directory.go) does when it has seen enough. -/
def Walk.receive (stop : List Link → Bool) (g : Walk) (v : Link) : Walk :=
  if stop (g.got ++ [v]) then { g with got := g.got ++ [v], ret := some .stopped, cancelled := true } else { g with got := g.got ++ [v] }

/-- `bad`: the nodes that the DAG service cannot deliver. hamt/hamt.go:416-431, 492-606, 608-621. -/
inductive Step (bad : Node → Prop) (stop : List Link → Bool) : Walk → Walk → Prop
  /-- hamt.go:579-587 and 509. -/
  | feed {g : Walk} {i : Nat} {l : Frontier} {todo : List Frontier} {p : Int} (hm : g.main = .loop (some l) todo p) (hi : g.workers[i]? = some .idle) :
      Step bad stop g { g.move i (.shards l.shards l.cids) with main := .loop todo.head? todo.tail (p + 1) }
  /-- hamt.go:509: `feed` is closed. -/
  | feedClosed {g : Walk} {i : Nat} (hm : ∀ next todo p, g.main ≠ .loop next todo p) (hi : g.workers[i]? = some .idle) : Step bad stop g (g.move i .exit)
  /-- hamt.go:510-511. -/
  | shard {g : Walk} {i : Nat} {s : Shard} {ss : List Shard} {cs : List Node} (hi : g.workers[i]? = some (.shards (s :: ss) cs)) :
      Step bad stop g (g.move i (.emit s.walkChildren.1 s.walkChildren.2 (.shards ss cs)))
  | shardsDone {g : Walk} {i : Nat} {cs : List Node} (hi : g.workers[i]? = some (.shards [] cs)) : Step bad stop g (g.move i (.visit cs []))
  /-- hamt.go:424, 619. -/
  | emitSend {g : Walk} {i : Nat} {v : Link} {vs : List Link} {r : Except Err Frontier} {k : Cont} (hi : g.workers[i]? = some (.emit (v :: vs) r k))
      (hr : g.ret = none) : Step bad stop g ((g.move i (.emit vs r k)).receive stop v)
  /-- hamt.go:614-615, 620: the value is dropped. -/
  | emitDrop {g : Walk} {i : Nat} {v : Link} {vs : List Link} {r : Except Err Frontier} {k : Cont} (hi : g.workers[i]? = some (.emit (v :: vs) r k))
      (hc : g.cancelled = true) : Step bad stop g (g.move i (.emit vs r k))
  /-- hamt.go:512-514, 548-550. -/
  | emitErr {g : Walk} {i : Nat} {e : Err} {k : Cont} (hi : g.workers[i]? = some (.emit [] (.error e) k)) : Step bad stop g (g.fail i e)
  | emitOk {g : Walk} {i : Nat} {l : Frontier} {k : Cont} (hi : g.workers[i]? = some (.emit [] (.ok l) k)) : Step bad stop g (g.move i (.out l k))
  /-- hamt.go:517, 553 and 593-599. -/
  | outSend {g : Walk} {i : Nat} {l : Frontier} {k : Cont} {next : Option Frontier} {todo : List Frontier} {p : Int} (hm : g.main = .loop next todo p)
      (hi : g.workers[i]? = some (.out l k)) :
      Step bad stop g { g.move i k.resume with main := .push next todo p l }
  /-- hamt.go:518-519, 554-555. -/
  | outCancel {g : Walk} {i : Nat} {l : Frontier} {k : Cont} (hi : g.workers[i]? = some (.out l k)) (hc : g.stopped) : Step bad stop g (g.move i .exit)
  /-- hamt.go:524-533. -/
  | visitNew {g : Walk} {i : Nat} {c : Node} {cs acc : List Node} (hi : g.workers[i]? = some (.visit (c :: cs) acc)) (hv : c ∉ g.visited) :
      Step bad stop g { g.move i (.visit cs (acc ++ [c])) with visited := c :: g.visited }
  | visitOld {g : Walk} {i : Nat} {c : Node} {cs acc : List Node} (hi : g.workers[i]? = some (.visit (c :: cs) acc)) (hv : c ∈ g.visited) :
      Step bad stop g (g.move i (.visit cs acc))
  | visitDone {g : Walk} {i : Nat} {acc : List Node} (hi : g.workers[i]? = some (.visit [] acc)) : Step bad stop g (g.move i (.many acc))
  /-- hamt.go:537-547: a node arrives. -/
  | manyGot {g : Walk} {i : Nat} {pend : List Node} {c : Node} {s : Shard} (hi : g.workers[i]? = some (.many pend)) (hc : c ∈ pend) (hb : ¬ bad c)
      (hl : newHamtFromDag c = .ok s) : Step bad stop g (g.move i (.emit s.walkChildren.1 s.walkChildren.2 (.many (pend.erase c))))
  /-- hamt.go:543-545. -/
  | manyDecode {g : Walk} {i : Nat} {pend : List Node} {c : Node} {e : Err} (hi : g.workers[i]? = some (.many pend)) (hc : c ∈ pend) (hb : ¬ bad c)
      (hl : newHamtFromDag c = .error e) : Step bad stop g (g.fail i e)
  /-- hamt.go:538-540. -/
  | manyErr {g : Walk} {i : Nat} {pend : List Node} (e : Err) (hi : g.workers[i]? = some (.many pend)) (hc : (∃ c ∈ pend, bad c) ∨ g.stopped) :
      Step bad stop g (g.fail i e)
  | manyDone {g : Walk} {i : Nat} (hi : g.workers[i]? = some (.many [])) : Step bad stop g (g.move i .done)
  /-- hamt.go:560 and 588-592. -/
  | doneSend {g : Walk} {i : Nat} {next : Option Frontier} {todo : List Frontier} {p : Int} (hm : g.main = .loop next todo p) (hi : g.workers[i]? = some .done) :
      Step bad stop g { g.move i .idle with main := if p - 1 = 0 ∧ next.isNone then .waiting else .loop next todo (p - 1) }
  /-- hamt.go:561. -/
  | doneCancel {g : Walk} {i : Nat} (hi : g.workers[i]? = some .done) (hc : g.stopped) : Step bad stop g (g.move i .idle)
  /-- hamt.go:600-601. -/
  | mainCancel {g : Walk} {next : Option Frontier} {todo : List Frontier} {p : Int} (hm : g.main = .loop next todo p) (hc : g.stopped) :
      Step bad stop g { g with main := .waiting }
  /-- hamt.go:605, 427: `grp.Wait` returns. -/
  | wait {g : Walk} (hm : g.main = .waiting) (hw : ∀ w ∈ g.workers, w = Worker.exit) :
      Step bad stop g { g with main := (match g.gerr with | some e => .emitErr e | none => .closed) }
  /-- hamt.go:428 and 396-398. -/
  | errSend {g : Walk} {e : Err} (hm : g.main = .emitErr e) (hr : g.ret = none) : Step bad stop g { g with main := .closed, ret := some (.err e) }
  | errDrop {g : Walk} {e : Err} (hm : g.main = .emitErr e) (hc : g.cancelled = true) : Step bad stop g { g with main := .closed }
  /-- hamt.go:395, 401: the channel is closed. -/
  | recvClosed {g : Walk} (hm : g.main = .closed) (hr : g.ret = none) : Step bad stop g { g with ret := some .ended }

/-- The caller cancels the context. The argument `ctx` at hamt/hamt.go:492. -/
def Walk.cancel (g : Walk) : Walk := { g with cancelled := true }

/-- Any number of steps, with a cancellation by the caller at any time. hamt/hamt.go:492-606. -/
inductive Steps (bad : Node → Prop) (stop : List Link → Bool) : Nat → Walk → Walk → Prop
  | refl (g : Walk) : Steps bad stop 0 g g
  | tail {n : Nat} {g g' g'' : Walk} (h : Steps bad stop n g g') (h' : Step bad stop g' g'') : Steps bad stop (n + 1) g g''
  | cancel {n : Nat} {g g' : Walk} (h : Steps bad stop n g g') (hc : g'.cancelled = false) : Steps bad stop (n + 1) g g'.cancel

end Unixfs.Hamt
