import Verif.Spec.Dir

/-!
# Specification vocabulary for C105

The definitions in this file belong to statements; they model no code.
-/

namespace Unixfs.Dir
open Unixfs.Hamt

/-- A call that asks for no list of entries and does not load the directory anew. -/
def DOp.Single : DOp → Prop
  | .links => False
  | .forEach _ => False
  | .reload => False
  | _ => True

/-- What the entry of `name` counts towards the size of the directory. -/
def entrySize (M : NMap) (name : Bytes) : Nat :=
  match M name with
  | some v => name.length + v.2.cidLen
  | none => 0

/-- By how much a successful call changes the size of the directory. -/
def sizeDelta (M : NMap) : DOp → Int
  | .add name nd => ((name.length + nd.cidLen : Nat) : Int) - entrySize M name
  | .remove name => - (entrySize M name : Int)
  | _ => 0

/-- The number of calls that add or remove a name that the directory has at that time. -/
def replaced (env : Env) : NMap → List DOp → Cfg → Nat
  | _, [], _ => 0
  | M, op :: ops, c =>
    (match op.target with | some k => if (M k).isSome then 1 else 0 | none => 0) + replaced env (mapAfter env M [op] c) ops (exec env op c).2

end Unixfs.Dir
