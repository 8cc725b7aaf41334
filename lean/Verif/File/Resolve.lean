import Verif.Hamt.Shard

/-!
# `/repo/io/resolve.go`
-/

namespace Unixfs.File
open Unixfs.Hamt

/-- What `ResolveLink` of node implementations other than `ProtoNode` and `RawNode` returns.
Called at io/resolve.go:23, 42. -/
abbrev OtherResolve := Bytes → List Bytes → Except Err (Option Link × List Bytes)

/-- go-merkledag v0.5.1 `ProtoNode.ResolveLink` with `GetNodeLink` (the first link with the name), and
`RawNode.ResolveLink`. Called at io/resolve.go:23, 42. -/
def resolveLink (oth : OtherResolve) : Node → List Bytes → Except Err (Option Link × List Bytes)
  | .proto _ _ _, [] => .error (.dir "end of path, no more links to resolve")
  | .proto _ ls _, name :: rest =>
    match ls.find? (fun l => l.name = name) with
    | none => .error .notExist
    | some l => .ok (some l, rest)
  | .raw _ _, _ => .error .notExist
  | .other d, names => oth d names

/-- resolve.go:17-43 `ResolveUnixfsOnce`; `none` is a nil link. The read-only DAG service refuses
additions, but `Find` makes none. `t` counts fetches. -/
def resolveUnixfsOnce (H : Hash) (net : Net) (oth : OtherResolve) (nd : Node) (names : List Bytes) (t : Nat) :
    Except Err (Option Link × List Bytes) × Nat :=
  match nd with
  | .proto d ls b =>
    match FSNode.fromBytes d with
    | .error _ => (resolveLink oth nd names, t)
    | .ok fsn =>
      if fsn.type = THAMTShard then
        match newHamtFromDag (.proto d ls b) with
        | .error e => (.error e, t)
        | .ok s =>
          match names with
          | [] => (.error .panic, t)
          | name :: rest =>
            match s.find H net name t with
            | (.error e, _, t') => (.error e, t')
            | (.ok out, _, t') => (.ok (out, rest), t')
      else (resolveLink oth nd names, t)
  | _ => (resolveLink oth nd names, t)

end Unixfs.File
