import Verif.Dir.Directory
import Verif.Spec.Hamt
import Verif.Spec.Walk

/-!
# Specification: a `Directory` is a finite map

`DOp`, `DRes` and `exec` are the client's view of the `Directory` interface of
`/repo/io/directory.go`. `DStep` is what a call must do to a plain map from names to links; neither
the two forms of a directory nor the switches between them occur in it.
-/

namespace Unixfs.Dir
open Unixfs.Hamt

/-- A call. -/
inductive DOp where
  | add (name : Bytes) (nd : Node)
  | remove (name : Bytes)
  | find (name : Bytes)
  | links
  /-- `cb j` says whether the `j`-th call of the client's function fails. -/
  | forEach (cb : Nat → Bool)
  | getNode
  /-- `GetNode`, then `NewDirectoryFromNode` of the result; the client continues with the new one. -/
  | reload
  | setCidBuilder (b : Option Builder)
  /-- An assignment to the global variable `HAMTShardingSize`. -/
  | setThreshold (n : Int)

/-- The name that a call stores. -/
def DOp.target : DOp → Option Bytes
  | .add name _ => some name | .remove name => some name | _ => none

/-- The result of a call. -/
inductive DRes where
  | done
  | node (nd : Node)
  | list (ls : List Link) (e : Option Err)
  | fail (e : Err)
deriving DecidableEq

/-- One call. -/
def exec (env : Env) : DOp → Cfg → DRes × Cfg
  | .add name nd, c => match addChild env c name nd with | (.ok (), c') => (.done, c') | (.error e, c') => (.fail e, c')
  | .remove name, c => match removeChild env c name with | (.ok (), c') => (.done, c') | (.error e, c') => (.fail e, c')
  | .find name, c => match find env c name with | (.ok nd, c') => (.node nd, c') | (.error e, c') => (.fail e, c')
  | .links, c => match links env c with | (ls, e, c') => (.list ls e, c')
  | .forEach cb, c => match forEachLink env c cb with | (ls, e, c') => (.list ls e, c')
  | .getNode, c => match getNode env c with | (.ok nd, c') => (.node nd, c') | (.error e, c') => (.fail e, c')
  | .reload, c =>
    match getNode env c with
    | (.error e, c') => (.fail e, c')
    | (.ok nd, c') => match newDirectoryFromNode nd with | .ok d => (.done, { c' with dir := d }) | .error e => (.fail e, c')
  | .setCidBuilder b, c => (.done, setCidBuilder c b)
  | .setThreshold n, c => (.done, { c with thr := n })

/-- The state after a list of calls. -/
def execAll (env : Env) : List DOp → Cfg → Cfg
  | [], c => c
  | op :: ops, c => execAll env ops (exec env op c).2

/-- The results of a list of calls. -/
def results (env : Env) : List DOp → Cfg → List DRes
  | [], _ => []
  | op :: ops, c => (exec env op c).1 :: results env ops (exec env op c).2

/-- What a call must do to the map: its result and the new map. `coll`: two names that cannot be
stored together in a HAMT. `excuse e`: something outside the directory failed during the call, which
is reported as `e`. `canc`: the context of an enumeration was cancelled during the call. -/
inductive DStep (coll : Bytes → Bytes → Prop) (excuse : Err → Prop) (canc : Prop) (M : NMap) : DOp → DRes → NMap → Prop
  | add {name : Bytes} {nd : Node} : DStep coll excuse canc M (.add name nd) .done (M.upd name (some (nd.size, nd)))
  /-- Two of the names, stored or to be stored, collide. -/
  | addDeep {name : Bytes} {nd : Node} {k1 k2 : Bytes} (h1 : k1 = name ∨ M k1 ≠ none) (h2 : k2 = name ∨ M k2 ≠ none) (hne : k1 ≠ k2) (hc : coll k1 k2) :
      DStep coll excuse canc M (.add name nd) (.fail .tooDeep) M
  | addFail {name : Bytes} {nd : Node} {e : Err} (h : excuse e) : DStep coll excuse canc M (.add name nd) (.fail e) M
  | remove {name : Bytes} {v : LinkVal} (h : M name = some v) : DStep coll excuse canc M (.remove name) .done (M.upd name none)
  | removeAbsent {name : Bytes} (h : M name = none) : DStep coll excuse canc M (.remove name) (.fail .notExist) M
  | removeFail {name : Bytes} {e : Err} (h : excuse e) : DStep coll excuse canc M (.remove name) (.fail e) M
  | find {name : Bytes} {v : LinkVal} (h : M name = some v) : DStep coll excuse canc M (.find name) (.node v.2) M
  | findAbsent {name : Bytes} (h : M name = none) : DStep coll excuse canc M (.find name) (.fail .notExist) M
  | findFail {name : Bytes} {e : Err} (h : excuse e) : DStep coll excuse canc M (.find name) (.fail e) M
  | links {ls : List Link} (h : Lists M ls) : DStep coll excuse canc M .links (.list ls none) M
  /-- C42: a cancelled enumeration may be incomplete and report no error. -/
  | linksCancelled {ls more : List Link} (h : Lists M (ls ++ more)) (hc : canc) : DStep coll excuse canc M .links (.list ls none) M
  | linksFail {ls more : List Link} {e : Err} (h : Lists M (ls ++ more)) (he : excuse e) : DStep coll excuse canc M .links (.list ls (some e)) M
  | each {cb : Nat → Bool} {ls : List Link} (h : Lists M ls) (hcb : ∀ j < ls.length, cb j = false) : DStep coll excuse canc M (.forEach cb) (.list ls none) M
  /-- The client's function failed on the last link it was given. -/
  | eachStop {cb : Nat → Bool} {ls more : List Link} {l : Link} (h : Lists M (ls ++ l :: more)) (hcb : ∀ j < ls.length, cb j = false)
      (hl : cb ls.length = true) : DStep coll excuse canc M (.forEach cb) (.list (ls ++ [l]) (some (.hamt "callback"))) M
  | eachFail {cb : Nat → Bool} {ls more : List Link} {e : Err} (h : Lists M (ls ++ more)) (hcb : ∀ j < ls.length, cb j = false) (he : excuse e) :
      DStep coll excuse canc M (.forEach cb) (.list ls (some e)) M
  | getNode {nd : Node} : DStep coll excuse canc M .getNode (.node nd) M
  | getNodeFail {e : Err} (h : excuse e) : DStep coll excuse canc M .getNode (.fail e) M
  | reload : DStep coll excuse canc M .reload .done M
  | reloadFail {e : Err} (h : excuse e) : DStep coll excuse canc M .reload (.fail e) M
  | setCidBuilder {b : Option Builder} : DStep coll excuse canc M (.setCidBuilder b) .done M
  | setThreshold {n : Int} : DStep coll excuse canc M (.setThreshold n) .done M

/-- What failed between the states `c` and `c'`: a fetch, an addition, or an enumeration. -/
inductive Excuse (env : Env) (c c' : Cfg) : Err → Prop
  | fetch (h : FetchFailed env.net c.t c'.t) : Excuse env c c' .notFound
  | add (h : AddRefused env.ref c.st.length c'.st.length) : Excuse env c c' .addFailed
  | enum {j : Nat} {e : Err} (h1 : c.k ≤ j) (h2 : j < c'.k) (h : (∃ x, env.bad j x) ∨ env.cancel j) : Excuse env c c' e

/-- The context of an enumeration between `c` and `c'` was cancelled. -/
def Cancelled (env : Env) (c c' : Cfg) : Prop := ∃ j, c.k ≤ j ∧ j < c'.k ∧ env.cancel j

/-- Every call of the history does to the map what it must; `M'` is the map at the end. -/
inductive DRun (env : Env) (coll : Bytes → Bytes → Prop) : Cfg → NMap → List DOp → NMap → Prop
  | nil {c : Cfg} {M : NMap} : DRun env coll c M [] M
  | cons {c c' : Cfg} {M M' M'' : NMap} {op : DOp} {r : DRes} {ops : List DOp} (he : exec env op c = (r, c'))
      (hs : DStep coll (Excuse env c c') (Cancelled env c c') M op r M') (ht : DRun env coll c' M' ops M'') : DRun env coll c M (op :: ops) M''

/-- The value of `k` after a history, given the results of its calls: what the last successful update
of `k` set. -/
def lastWrite (k : Bytes) : Option LinkVal → List (DOp × DRes) → Option LinkVal
  | cur, [] => cur
  | cur, (.add name nd, .done) :: h => lastWrite k (if name = k then some (nd.size, nd) else cur) h
  | cur, (.remove name, .done) :: h => lastWrite k (if name = k then none else cur) h
  | cur, _ :: h => lastWrite k cur h

/-- The map that a list of links stands for: the first link with the name. -/
def mapOf (ls : List Link) : NMap := fun k => (ls.find? (fun l => l.name = k)).map linkVal

/-- The map after a history on a directory that held `M` at first. -/
def mapAfter (env : Env) (M : NMap) (ops : List DOp) (c : Cfg) : NMap := fun k => lastWrite k (M k) (ops.zip (results env ops c))

/-- No call stores or removes the empty name. -/
def NoEmptyName (ops : List DOp) : Prop := ∀ op ∈ ops, op.target ≠ some []

/-- The hash function gives 64 bits (hamt/util.go uses murmur3); the configured width of new shards
is `2 ^ lg` and is accepted (by C54 it is one of 8, 16, ..., 1024). -/
structure Env.Valid (env : Env) (lg : Nat) : Prop where
  hash : ∀ k, (env.H k).length = 8
  width : env.width = ((2 ^ lg : Nat) : Int)
  accepted : ∃ s, newShard env.width = .ok s

/-- The enumerations are runs of the parallel walk with 32 workers (hamt.go:493), each under some
schedule. The context is done at the end only if the caller has cancelled it or the consumer has left. -/
def Env.Real (env : Env) : Prop := ∀ k s stop, ∃ m g, Steps (env.bad k) stop m (Walk.start 32 s) g ∧ g.Finished ∧
  g.ret = some (env.enum k s stop).ret ∧ g.got = (env.enum k s stop).got ∧ (g.cancelled = true → g.ret = some .stopped ∨ env.cancel k)

/-- No caller cancels. -/
def Env.NoCancel (env : Env) : Prop := ∀ k, ¬ env.cancel k

/-- Everything can be fetched, everything is accepted, nobody cancels. -/
structure Env.Works (env : Env) : Prop where
  net : ∀ t x, env.net t x = true
  ref : ∀ n, env.ref n = false
  bad : ∀ k x, ¬ env.bad k x
  cancel : env.NoCancel

/-- The size by which directories are compared with the threshold: the lengths of names and CIDs. -/
def total (ls : List Link) : Nat := (ls.map (fun l => l.name.length + l.target.cidLen)).sum

/-- A node as it is encoded and hashed: go-merkledag v0.5.1 `ProtoNode` sorts the links by name, and
keeps the order of links with the same name. -/
def encoded : Node → Node
  | .proto d ls b => .proto d (ls.mergeSort (fun x y => !decide (NameLt y.name x.name))) b
  | n => n

/-- The client at the beginning. -/
def start (d : Dir) (thr : Int) : Cfg := { dir := d, t := 0, st := [], k := 0, thr := thr }

end Unixfs.Dir
