import Verif.Mod.DagModifier
import Verif.Spec.Mod
import Verif.Spec.File
import Verif.Spec.Import

/-!
# Specification: a modifier as an ordinary file

`FileStep` is what each call of a `DagModifier` ought to do, on a byte array with one position.
`Careful` are the calls for which the modifier does just that. What it does otherwise is the subject
of the `_violated` theorems.
-/

namespace Unixfs.Spec
open Unixfs Unixfs.Mod

/-- An open file. -/
structure File where
  data : Bytes
  pos : Nat := 0

/-- Where `Seek(off, whence)` goes, by the contract of `io.Seeker`. -/
def File.target (f : File) (off : Int64) (whence : Int) : Option Int :=
  if whence = 0 then some off.toInt
  else if whence = 1 then some (f.pos + off.toInt)
  else if whence = 2 then some (f.data.length + off.toInt)
  else none

/-- One call: result and file afterwards. Not as with `os.File`: `WriteAt` moves the position by the
number of bytes written, and `Seek` beyond the end extends the file at once. -/
inductive FileStep : File → MOp → MRes → File → Prop
  | write (f : File) (b : Bytes) : FileStep f (.write b) { n := b.length } ⟨overlay f.data f.pos b, f.pos + b.length⟩
  | writeAt (f : File) (b : Bytes) (off : Int64) (h : 0 ≤ off.toInt) :
      FileStep f (.writeAt b off) { n := b.length } ⟨overlay f.data off.toInt.toNat b, f.pos + b.length⟩
  | read (f : File) (k : Nat) (h : 0 < k) :
      FileStep f (.read k)
        { n := ((f.data.drop f.pos).take k).length, bytes := (f.data.drop f.pos).take k,
          err := if f.data.length < f.pos + k then some .eof else none }
        ⟨f.data, f.pos + ((f.data.drop f.pos).take k).length⟩
  | read0 (f : File) (e : Option Err) (h : e = none ∨ e = some .eof ∧ f.data.length ≤ f.pos) : FileStep f (.read 0) { err := e } f
  | seek (f : File) (off : Int64) (whence : Int) (t : Nat) (h : f.target off whence = some (t : Int)) :
      FileStep f (.seek off whence) { n := t } ⟨if f.data.length < t then resize f.data t else f.data, t⟩
  | truncate (f : File) (s : Int64) (h : 0 ≤ s.toInt) : FileStep f (.truncate s) {} ⟨resize f.data s.toInt.toNat, f.pos⟩
  | sync (f : File) : FileStep f .sync {} f
  | getNode (f : File) (n : Node) (hc : content n = some f.data) (hs : SizesTrue n) : FileStep f .getNode { node := some n } f
  | size (f : File) : FileStep f .size { n := f.data.length } f
  | hasChanges (f : File) (b : Bool) : FileStep f .hasChanges { n := if b then 1 else 0 } f

/-- What a careful caller keeps track of: where the last write or seek ended, whether there may be
unsynced writes, whether there may be a reader (a `Read`, and no write since). -/
structure Track where
  wp : Nat := 0
  dirty : Bool := false
  reader : Bool := false

/-- `f'` is the file after the call. -/
def Track.next (t : Track) (f' : File) : MOp → Track
  | .write _ => { wp := f'.pos, dirty := true, reader := false }
  | .writeAt b off => { wp := off.toInt.toNat + b.length, dirty := true, reader := false }
  | .read _ => { t with dirty := false, reader := true }
  | .seek _ _ => { t with wp := f'.pos, dirty := false }
  | .truncate _ => { t with dirty := false }
  | .sync => { t with dirty := false }
  | .getNode => { t with dirty := false }
  | .size => t
  | .hasChanges => t

/-- The calls the modifier gets right. `grow`: the DAG can be extended. `Write` must continue the last
write or follow a `Seek`, so not a `Read`. `WriteAt` must continue the last write, or go to another
place than the position that, if there may be unsynced writes, is beyond the last one. `Seek` relative
to the end must go to the end. With a reader the length must not change. Sizes must fit in an
`int64`. -/
def Careful (grow : Prop) (f : File) (t : Track) : MOp → Prop
  | .write b => t.wp = f.pos ∧ f.pos + b.length < 2 ^ 63 ∧ (grow ∨ f.pos + b.length ≤ f.data.length)
  | .writeAt b off => 0 ≤ off.toInt ∧
      (off.toInt = t.wp ∨ (off.toInt ≠ f.pos ∧ (t.dirty = false ∨ (t.wp : Int) < off.toInt))) ∧
      f.pos + b.length < 2 ^ 63 ∧ off.toInt.toNat + b.length < 2 ^ 63 ∧ (grow ∨ off.toInt.toNat + b.length ≤ f.data.length)
  | .read k => f.pos + k < 2 ^ 63
  | .seek off whence => (whence = 2 → off.toInt = 0) ∧
      ∃ p : Nat, f.target off whence = some (p : Int) ∧ p < 2 ^ 63 ∧ (p ≤ f.data.length ∨ (grow ∧ t.reader = false))
  | .truncate s => 0 ≤ s.toInt ∧ (t.reader = false ∨ s.toInt = f.data.length) ∧ (s.toInt ≤ f.data.length ∨ grow)
  | _ => True

/-- The splitter, unless it reports an error, delivers its input. (`io.EOF` is not an error but the end.) -/
def SplitOK (env : Env) : Prop := ∀ b, ((env.split b).2 = none → (env.split b).1.flatten = b) ∧ (env.split b).2 ≠ some .eof

/-- The call failed for a reason outside the modifier: a block could not be fetched or stored, or the
splitter reported an error or delivered a chunk beyond the block size limit. -/
def OutsideFailure (env : Env) (r : MRes) : Prop :=
  (r.err = some .notFound ∧ ∃ t x, env.get t x = false) ∨
  (r.err = some .addFailed ∧ ((∃ t, env.put t = false) ∨ ∃ t, env.budget t ≠ none)) ∨
  (∃ b e, r.err = some e ∧ (env.split b).2 = some e) ∨
  (r.err = some .sizeLimitExceeded ∧ ∃ b, ¬AllFit (env.split b).1)

/-- A history of calls with their results, each as on a file, up to the end (then the last file) or to
the first call for which `fails`. -/
inductive FileRun (fails : MRes → Prop) : File → List MOp → List MRes → Option File → Prop
  | nil (f : File) : FileRun fails f [] [] (some f)
  | cons {f f' : File} {e : Option File} {op : MOp} {r : MRes} {ops : List MOp} {rs : List MRes} (h : FileStep f op r f')
      (t : FileRun fails f' ops rs e) : FileRun fails f (op :: ops) (r :: rs) e
  | fail {f : File} {op : MOp} {r : MRes} {ops : List MOp} {rs : List MRes} (h : fails r) : FileRun fails f (op :: ops) (r :: rs) none

/-- The file after a call, see `FileStep`. -/
def File.next (f : File) : MOp → File
  | .write b => ⟨overlay f.data f.pos b, f.pos + b.length⟩
  | .writeAt b off => ⟨overlay f.data off.toInt.toNat b, f.pos + b.length⟩
  | .read k => ⟨f.data, f.pos + ((f.data.drop f.pos).take k).length⟩
  | .seek off whence =>
    match f.target off whence with
    | some t => ⟨if f.data.length < t.toNat then resize f.data t.toNat else f.data, t.toNat⟩
    | none => f
  | .truncate s => ⟨resize f.data s.toInt.toNat, f.pos⟩
  | _ => f

theorem FileStep.next_eq {f f' : File} {op : MOp} {r : MRes} (h : FileStep f op r f') : f' = f.next op := by
  cases h with
  | seek off whence t h => simp [File.next, h]
  | _ => simp [File.next]

/-- All calls of the history are careful. -/
def CarefulRun (grow : Prop) : File → Track → List MOp → Prop
  | _, _, [] => True
  | f, t, op :: ops => Careful grow f t op ∧ CarefulRun grow (f.next op) (t.next (f.next op) op) ops

/-- The file after a history of calls. -/
def File.after (f : File) (ops : List MOp) : File := ops.foldl File.next f

/-- `chunks'` are the bytes `c`, cut at the same places as `chunks`. -/
def CutAlike (chunks : List Bytes) (c : Bytes) (chunks' : List Bytes) : Prop :=
  chunks'.map List.length = chunks.map List.length ∧ chunks'.flatten = c

/-- `chunks'` are the first `s` of the bytes `c`, cut at the same places as `chunks`, where `s` lies inside
a chunk and not between two. -/
def CutShort (chunks : List Bytes) (c : Bytes) (s : Nat) (chunks' : List Bytes) : Prop :=
  chunks'.flatten = c.take s ∧ ∃ pre x post k, chunks = pre ++ x :: post ∧ 0 < k ∧ k < x.length ∧ chunks'.map List.length = pre.map List.length ++ [k]

/-- The results of the calls `ops` on a new modifier of the file `root`. -/
def results (env : Env) (root : Node) (ops : List MOp) : List MRes :=
  match newDagModifier root with
  | .ok dm => (dm.run env ops).1
  | .error _ => []

/-- The blocks stored by the calls `ops` on a new modifier of the file `root`. -/
def storedBy (env : Env) (root : Node) (ops : List MOp) : List Node :=
  match newDagModifier root with
  | .ok dm => (dm.run env ops).2.svc.stored
  | .error _ => []

/-- The DAG service stores every node that a call of `Append` inside the modifier hands it. (Fetches may
fail, and so may the other calls of `Add`.) -/
def AppendsStored (env : Env) : Prop := ∀ t, env.budget t = none

/-- A DAG service that never fails. -/
def NeverFails (env : Env) : Prop := (∀ t n, env.get t n = true) ∧ (∀ t, env.put t = true) ∧ ∀ t, env.budget t = none

/-- What a caller sees of a result: the number, the bytes read, the content of the node, the error. -/
def seen (r : MRes) : Int × Bytes × Option Bytes × Option Err := (r.n, r.bytes, r.node.bind content, r.err)

/-- A list of writes, bytes and offset, applied in order to a byte array. -/
def applyWrites (c : Bytes) (ws : List (Bytes × Int64)) : Bytes := ws.foldl (fun c w => overlay c w.2.toInt.toNat w.1) c

/-- Each write begins at `p` or after, and after the end of the one before. -/
def Ascending : Nat → List (Bytes × Int64) → Prop
  | _, [] => True
  | p, w :: ws => (p : Int) ≤ w.2.toInt ∧ Ascending (w.2.toInt.toNat + w.1.length) ws

/-- How far a call can move or extend. -/
def reachOf : MOp → Nat
  | .write b => b.length
  | .writeAt b off => off.toInt.natAbs + b.length
  | .read k => k
  | .seek off _ => off.toInt.natAbs
  | .truncate s => s.toInt.natAbs
  | _ => 0

/-- Offsets and sizes are not negative. -/
def NonNeg : MOp → Prop
  | .writeAt _ off => 0 ≤ off.toInt
  | .truncate s => 0 ≤ s.toInt
  | _ => True

/-- The call reported no error (`Read` may report EOF), and `Seek` did not go before the beginning. -/
def Fine (op : MOp) (r : MRes) : Prop := (r.err = none ∨ (r.err = some .eof ∧ ∃ k, op = .read k)) ∧ 0 ≤ r.n

end Unixfs.Spec
