import Verif.Spec.OneTree
import Verif.Spec.Unixfile
import Verif.Spec.Reader

/-!
# Copying a tree out (C119, C120, C123), and going through any DAG (C121)

A program that writes a tree to disk: it opens the root, reads files, and goes through directories. It is not part of /repo; it uses the API only.
The definitions in this file belong to statements; they model no code.
-/

namespace Unixfs.Spec
open Unixfs
open Unixfs.Hamt hiding Cfg
open Unixfs.Dir Unixfs.File

/-- `Exports H net f tr`: the program went through `f` and got `tr`, and no call told it of an error. `net` says which fetches are answered.
A file is read with one `WriteTo`, or with `Read` until the end of the file is reported, where it may try again after errors. A directory is gone
through with the iterator of `Entries`, in any interleaving with the producer, until `Next` returns `false` and `Err` is nil; then the entries are
gone through, in the same way. `env` is what the directory meets. -/
inductive Exports (H : Hash) (net : Net) : FileNode → Tree → Prop
  | writeTo {dr dr' : DR} {w : Writer} {r : Res} (hw : goodWriter w) (h : dr.run net [.writeTo w] = ([r], dr')) (he : r.err = none) :
      Exports H net (.file dr) (.file r.bytes)
  | reads {dr dr' : DR} {ks : List Nat} {rs : List Res} {r : Res} (hk : ∀ k ∈ ks, 0 < k) (h : dr.run net (ks.map .read) = (rs ++ [r], dr'))
      (he : r.err = some .eof) : Exports H net (.file dr) (.file (((rs ++ [r]).map Res.bytes).flatten))
  | symlink {target : Bytes} : Exports H net (.symlink target) (.symlink target)
  | dir {d : Dir} {size : Int} {env : Env} {c : Dir.Cfg} {n : Nat} {g : It} {es : List (Bytes × Tree)} (hH : env.H = H) (hn : env.net = net) (hd : c.dir = d)
      (h : It.Steps net n (It.start (linksAndError env c).1 (linksAndError env c).2) g) (hl : .no none ∈ g.log)
      (hnames : es.map Prod.fst = g.delivered.map Prod.fst)
      (hsub : ∀ (i : Nat) e x, es[i]? = some e → g.delivered[i]? = some x → Exports H net x.2 e.2) : Exports H net (.dir d size) (.dir es)

/-- `Seen net nd k f`: a program that opened `nd` and went `k` levels down into directories, each with an iterator of `Entries` in any interleaving,
has come upon `f`. `env` is what the directory meets. -/
inductive Seen (net : Net) (nd : Node) : Nat → FileNode → Prop
  | root {t : Nat} {f : FileNode} (h : newUnixfsFile net t nd = .ok f) : Seen net nd 0 f
  | entry {k : Nat} {d : Dir} {size : Int} {env : Env} {c : Dir.Cfg} {n : Nat} {g : It} {x : Bytes × FileNode} (h : Seen net nd k (.dir d size)) (hd : c.dir = d)
      (hs : It.Steps net n (It.start (linksAndError env c).1 (linksAndError env c).2) g) (hx : x ∈ g.delivered) : Seen net nd (k + 1) x.2

/-- `Copies dnet net f tr`: the program of `Exports`, on any DAG. It gives up on any error, except that it may call `Read` again when a block could not be fetched.
`dnet` answers the fetches of directories, `net` those of the iterators and readers. -/
inductive Copies (dnet net : Net) : FileNode → Tree → Prop
  | writeTo {dr dr' : DR} {w : Writer} {r : Res} (hw : goodWriter w) (h : dr.run net [.writeTo w] = ([r], dr')) (he : r.err = none) :
      Copies dnet net (.file dr) (.file r.bytes)
  | reads {dr dr' : DR} {ks : List Nat} {rs : List Res} {r : Res} (hk : ∀ k ∈ ks, 0 < k) (h : dr.run net (ks.map .read) = (rs ++ [r], dr'))
      (hrs : ∀ x ∈ rs, x.err = none ∨ x.err = some .notFound) (he : r.err = some .eof) : Copies dnet net (.file dr) (.file (((rs ++ [r]).map Res.bytes).flatten))
  | symlink {target : Bytes} : Copies dnet net (.symlink target) (.symlink target)
  | dir {d : Dir} {size : Int} {env : Env} {c : Dir.Cfg} {n : Nat} {g : It} {es : List (Bytes × Tree)} (hn : env.net = dnet) (hd : c.dir = d)
      (h : It.Steps net n (It.start (linksAndError env c).1 (linksAndError env c).2) g) (hl : .no none ∈ g.log)
      (hnames : es.map Prod.fst = g.delivered.map Prod.fst)
      (hsub : ∀ (i : Nat) e x, es[i]? = some e → g.delivered[i]? = some x → Copies dnet net x.2 e.2) : Copies dnet net (.dir d size) (.dir es)

end Unixfs.Spec
