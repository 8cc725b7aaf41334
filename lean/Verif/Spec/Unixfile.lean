import Verif.File.Unixfile
import Verif.File.Resolve
import Verif.Spec.Dir

/-!
# Specification: files, directories and symlinks; iteration
-/

namespace Unixfs.File
open Unixfs.Hamt Unixfs.Dir

/-- A delivered entry `x` is the node that link `l` points to, under the link's name. -/
def Opened (net : Net) (l : Link) (x : Bytes × FileNode) : Prop := x.1 = l.name ∧ ∃ t, newUnixfsFile net t l.target = .ok x.2

/-- What justifies the error `e` of an iteration: the context was cancelled; `ForEachLink` failed with
it; a node could not be fetched, or not be opened. -/
def Cause (net : Net) (ls : List Link) (fin : Option Err) (cancelled : Bool) (e : Err) : Prop :=
  (e = .cancelled ∧ cancelled = true) ∨ fin = some e ∨
  ∃ l ∈ ls, (e = .notFound ∧ ∃ t, net t l.target = false) ∨ ∃ t, newUnixfsFile net t l.target = .error e

/-- The links that `ForEachLink` goes through, for a function that never fails, and its error. -/
def linksAndError (env : Env) (c : Dir.Cfg) : List Link × Option Err := ((forEachLink env c (fun _ => false)).1, (forEachLink env c (fun _ => false)).2.1)

/-- Neither a panic nor a loop that does not end. -/
def NoPanic {α : Type} (r : Except Err α) : Prop := r ≠ .error .panic ∧ r ≠ .error .outOfFuel

end Unixfs.File
