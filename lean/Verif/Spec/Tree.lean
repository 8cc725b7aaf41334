import Verif.Spec.Dir
import Verif.Spec.Import
import Verif.Import.Balanced
import Verif.Import.Trickle
import Verif.File.Resolve

/-!
# Specification: file trees (C83)

A tree as a user sees it, the ways in which this library turns it into nodes, and the loop with which
clients resolve a path.
-/

namespace Unixfs.Spec
open Unixfs.Hamt hiding exec execAll results NoEmptyName lastWrite Cfg
open Unixfs.Dir Unixfs.File Unixfs.Import

/-- A tree of files, symbolic links and directories. -/
inductive Tree where
  | file (content : Bytes)
  | symlink (target : Bytes)
  | dir (entries : List (Bytes × Tree))

/-- What is at a path. -/
def Tree.at : Tree → List Bytes → Option Tree
  | t, [] => some t
  | .dir es, k :: rest => match es.lookup k with | none => none | some t => t.at rest
  | _, _ :: _ => none

/-- In every directory the names are distinct and not empty (and no symbolic link is too long for Go). -/
inductive Tree.Proper : Tree → Prop
  | file (c : Bytes) : Proper (.file c)
  | symlink {target : Bytes} (h : target.length < 2 ^ 63) : Proper (.symlink target)
  | dir {es : List (Bytes × Tree)} (hnd : (es.map Prod.fst).Nodup) (hne : [] ∉ es.map Prod.fst) (hs : ∀ e ∈ es, Proper e.2) : Proper (.dir es)

/-- The node `nd` has been made from the tree with this library: files by one of the two layouts, with
any parameters and any way to cut the content into chunks; symbolic links from `SymlinkData`; directories by any history of calls on a new directory, at the end of which
the entries are the ones of the tree, each stored with a node made from it. `H` is the hash function of
HAMT directories; what can be fetched and stored, the threshold and the width are free. -/
inductive Published (H : Hash) : Tree → Node → Prop
  | balanced {p : Params} {path : Option Bytes} {chunks : List Bytes} {budget : Option Nat} {db db' : DB} {fuel : Nat} {root : Built}
      (hf : Fresh p path chunks none budget db) (h2 : 2 ≤ p.maxlinks) (h : Balanced.layout fuel db = .ok (root, db')) :
      Published H (.file chunks.flatten) root.node
  | trickle {p : Params} {path : Option Bytes} {chunks : List Bytes} {budget : Option Nat} {db db' : DB} {fuel : Nat} {root : Node}
      (hf : Fresh p path chunks none budget db) (h1 : 1 ≤ p.maxlinks) (h : Trickle.layout fuel db = .ok (root, db')) :
      Published H (.file chunks.flatten) root
  | symlink {target data : Bytes} {b : Builder} (hl : target.length < 2 ^ 63) (h : symlinkData target = .ok data) :
      Published H (.symlink target) (.proto data [] b)
  | dir {env env' : Env} {lg : Nat} {ops : List DOp} {thr : Int} {nd : Node} {es : List (Bytes × Tree)} (hv : env.Valid lg) (hr : env.Real)
      (hH : env.H = H) (hH' : env'.H = H) (hn : NoEmptyName ops) (hg : (exec env' .getNode (execAll env ops (start newDirectory thr))).1 = .node nd)
      (hes : ∀ k, (es.lookup k).isSome = (mapAfter env (mapOf []) ops (start newDirectory thr) k).isSome)
      (hsub : ∀ k t v, es.lookup k = some t → mapAfter env (mapOf []) ops (start newDirectory thr) k = some v → Published H t v.2) :
      Published H (.dir es) nd

/-- The loop of a client that resolves a path: `ResolveUnixfsOnce`, then the target of the link is
fetched, until no name is left (this is what go-path's `Resolver` does with `ResolveOnce :=
ResolveUnixfsOnce`; it is not in /repo). `t` counts fetches. -/
def resolvePath (H : Hash) (net : Net) (oth : OtherResolve) : Nat → Node → List Bytes → Nat → Except Err Node × Nat
  | _, nd, [], t => (.ok nd, t)
  | 0, _, _ :: _, t => (.error .outOfFuel, t)
  | fuel + 1, nd, names, t =>
    match resolveUnixfsOnce H net oth nd names t with
    | (.error e, t') => (.error e, t')
    | (.ok (none, _), t') => (.error .panic, t')
    | (.ok (some l, rest), t') => if net t' l.target then resolvePath H net oth fuel l.target rest (t' + 1) else (.error .notFound, t' + 1)

end Unixfs.Spec
