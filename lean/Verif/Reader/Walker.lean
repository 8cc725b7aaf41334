import Verif.Dag

/-!
# `ipld.Walker` (go-ipld-format v0.2.0, walker.go), as driven by `/repo/io/dagreader.go`

The source of this dependency is not in the sandbox; the definitions follow its published code.
The `path`/`childIndex` arrays up to `currentDepth` are one list of frames, innermost first; the
state before the first visit (`currentDepth == -1`) is the empty list.

Fetching a block goes through an oracle `Net`: `net t n` says whether the `t`-th fetch, if it asks
for `n`, succeeds. It is an arbitrary function, so it covers blocks that are missing for some calls
and appear later, cancelled contexts and a closed reader. Preloading (navipld.go) only moves a
fetch, and with it its failure, to an earlier moment and is not modelled; a promise is dropped once
its value has been asked for, so that a second try fetches again. The clock `tick` is not part of
the Go state.
-/

namespace Unixfs

/-- Does the `t`-th fetch succeed if it asks for this node?
`dserv.Get`, used by the node promises made at io/dagreader.go:107. -/
abbrev Net := Nat → Node → Bool

/-- walker.go: one level of `path` and `childIndex`. -/
structure Frame where
  node : Node
  idx : Nat
deriving DecidableEq, Repr

/-- The walker plus the state `s` that the visitor closure captures.
Dependency go-ipld-format; io/dagreader.go:112-145. -/
structure WS (σ : Type) where
  path : List Frame
  tick : Nat
  s : σ

/-- What a visitor returns: nil, nil after calling `Pause()`, or an error.
io/dagreader.go:182-216, 303-331, 393-462. -/
inductive Visit where
  | cont
  | pause
  | fail (e : Err)
deriving DecidableEq, Repr

/-- A visitor may also move the child index of the active node. io/dagreader.go:182-216, 303-331, 393-462. -/
abbrev Visitor (σ : Type) := Node → σ → Visit × Nat × σ

/-- Outcome of `down`. Dependency go-ipld-format. -/
inductive Down where
  | noChild
  | ok
  | paused
  | err (e : Err)
deriving DecidableEq, Repr

/-- walker.go `extendPath` then `visitActiveNode`. -/
def visitChild {σ : Type} (v : Visitor σ) (child : Node) (path : List Frame) (tick : Nat) (s : σ) : Down × WS σ :=
  match v child s with
  | (r, i, s') =>
    (match r with
     | .cont => .ok
     | .pause => .paused
     | .fail e => .err e,
     { path := ⟨child, i⟩ :: path, tick := tick, s := s' })

/-- walker.go `down` with `fetchChild`: the root needs no fetch; a failed fetch changes nothing. -/
def down {σ : Type} (net : Net) (root : Node) (v : Visitor σ) (w : WS σ) : Down × WS σ :=
  match w.path with
  | [] => visitChild v root [] w.tick w.s
  | ⟨n, i⟩ :: _ =>
    match n.links[i]? with
    | none => (.noChild, w)
    | some l =>
      if net w.tick l.target then visitChild v l.target w.path (w.tick + 1) w.s
      else (.err .notFound, { w with tick := w.tick + 1 })

/-- walker.go `NextChild` with `incrementActiveChildIndex`: the new index, which is the number of
children when there is no next child. -/
def nextIdx (f : Frame) : Nat := if f.idx + 1 ≤ f.node.links.length then f.idx + 1 else f.idx

/-- walker.go `Iterate`, second inner loop: next child, or up and try again. `false`: at the root
with no next child (`errUpOnRoot`, hence `EndOfDag`). -/
def climb : List Frame → Bool × List Frame
  | [] => (false, [])
  | f :: rest =>
    if nextIdx f = f.node.links.length then
      match rest with
      | [] => (false, [⟨f.node, nextIdx f⟩])
      | g :: up => climb (g :: up)
    else (true, ⟨f.node, nextIdx f⟩ :: rest)

/-- Outcome of a walk. io/dagreader.go:218-222, 333-338, 464-466. -/
inductive WalkEnd where
  | paused
  | endOfDag
  | err (e : Err)
deriving DecidableEq, Repr

/-- walker.go `Iterate`. -/
def iterate {σ : Type} (net : Net) (root : Node) (v : Visitor σ) : Nat → WS σ → WalkEnd × WS σ
  | 0, w => (.err .outOfFuel, w)
  | k + 1, w =>
    match down net root v w with
    | (.ok, w') => iterate net root v k w'
    | (.paused, w') => (.paused, w')
    | (.err e, w') => (.err e, w')
    | (.noChild, w') =>
      match climb w'.path with
      | (true, p) => iterate net root v k { w' with path := p }
      | (false, p) => (.endOfDag, { w' with path := p })

/-- walker.go `Seek`: down until it cannot or the visitor stops it; `none` is success. -/
def walkSeek {σ : Type} (net : Net) (root : Node) (v : Visitor σ) : Nat → WS σ → Option Err × WS σ
  | 0, w => (some .outOfFuel, w)
  | k + 1, w =>
    match down net root v w with
    | (.ok, w') => walkSeek net root v k w'
    | (.paused, w') => (none, w')
    | (.noChild, w') => (none, w')
    | (.err e, w') => (some e, w')

mutual
/-- Number of nodes of a DAG, counted with multiplicity. Not in the code; see `walkFuel`. -/
def Node.count : Node → Nat
  | .proto _ ls _ => 1 + Link.countL ls
  | .raw .. => 1
  | .other .. => 1
/-- Not in the code; see `walkFuel`. -/
def Link.countL : List Link → Nat
  | [] => 0
  | .mk _ _ n :: ls => n.count + Link.countL ls
end

/-- Loop budget of a walk over this DAG. Not in the Go code, whose loops are unbounded; theorem
`C60_terminates` shows that it is never exhausted. Loops of io/dagreader.go:182-216 and of the walker. -/
def walkFuel (root : Node) : Nat := 2 * root.count + 2

end Unixfs
