import Verif.Dir.Alias

/-!
# Specification: what a directory has handed out

Notions for C86. The definitions in this file belong to statements; they model no code.
-/

namespace Unixfs.Dir
open Unixfs.Hamt

/-- The directory is in its plain form and has an entry with this name. -/
def Dir.Plain (d : Dir) (name : Bytes) : Prop := ∃ b l, d = .basic b ∧ l ∈ b.links ∧ l.name = name

/-- The directory is in its plain form. -/
def Dir.IsBasic (d : Dir) : Prop := ∃ b, d = .basic b

/-- The directory is a HAMT. -/
def Dir.IsHamt (d : Dir) : Prop := ∃ h, d = .hamt h

namespace World

/-- The states that a client can bring about, beginning with an empty directory or with one loaded from
a node. -/
inductive Reached (env : Env) (room : Nat → Nat) : World → Prop
  | new (thr : Int) : Reached env room (new thr)
  | load {n : Node} {thr : Int} {w : World} (h : fromNode room n thr = .ok w) : Reached env room w
  | step {w : World} (h : Reached env room w) (op : AOp) : Reached env room (w.step env room op)

/-- A history of calls on the directory, with no encoding of a node in between. -/
def OnlyCalls (ops : List AOp) : Prop := ∀ op ∈ ops, ∃ o, op = .call o

/-- A history of calls none of which removes or replaces an entry of a plain directory. -/
def Quiet (env : Env) (room : Nat → Nat) : World → List AOp → Prop
  | _, [] => True
  | w, op :: ops => (∃ o, op = .call o ∧ ∀ name, o.target = some name → ¬ w.c.dir.Plain name) ∧ Quiet env room (w.step env room op) ops

/-- The directory stays in its plain form during the history, and the client does not load it anew. -/
def StaysPlain (env : Env) (room : Nat → Nat) : World → List AOp → Prop
  | w, [] => w.c.dir.IsBasic
  | w, op :: ops => w.c.dir.IsBasic ∧ op ≠ .call .reload ∧ StaysPlain env room (w.step env room op) ops

/-- A loop that removes every entry it is given. -/
def clearing : Nat → Link → List AOp := fun _ l => [.call (.remove l.name)]

end World
end Unixfs.Dir
