import Verif.Reader.DagReader
import Verif.Spec.File

/-!
# Specification: a flat byte reader

What `Read`, `Seek` and `WriteTo` mean on a plain byte string `c` with a position, as for
`bytes.Reader`. No DAG, no walker, no buffer.
-/

namespace Unixfs.Spec
open Unixfs

/-- Absolute target of `Seek(off, whence)`; `int64` additions wrap. `none`: unknown whence. -/
def seekTarget (len pos : Nat) (off : Int64) (whence : Int) : Option Int :=
  if whence = 0 then some off.toInt
  else if whence = 1 then some (i64 (pos + off.toInt))
  else if whence = 2 then some (i64 (len + off.toInt))
  else none

/-- One call on a flat reader at position `p`: its result and the new position. A `Read` into an
empty buffer delivers nothing and may or may not report EOF when at the end. -/
inductive FlatStep (c : Bytes) : Nat → ROp → Res → Nat → Prop
  /-- `Read` fills the buffer from the current position; EOF iff it could not be filled. -/
  | read (p k : Nat) (hk : 0 < k) :
      FlatStep c p (.read k)
        { bytes := (c.drop p).take k, n := ((c.drop p).take k).length,
          err := if c.length < p + k then some .eof else none }
        (p + ((c.drop p).take k).length)
  | read0 (p : Nat) (e : Option Err) (h : e = none ∨ e = some .eof ∧ c.length ≤ p) :
      FlatStep c p (.read 0) { bytes := [], n := 0, err := e } p
  /-- `WriteTo` delivers everything from the current position on. -/
  | writeTo (p : Nat) (w : Writer) :
      FlatStep c p (.writeTo w) { bytes := c.drop p, n := (c.drop p).length } (p + (c.drop p).length)
  /-- `Seek` to a non-negative target, possibly beyond the end. -/
  | seek (p : Nat) (off : Int64) (whence : Int) (t : Nat) (h : seekTarget c.length p off whence = some (t : Int)) :
      FlatStep c p (.seek off whence) { n := t } t
  | seekNeg (p : Nat) (off : Int64) (whence : Int) (t : Int) (h : seekTarget c.length p off whence = some t) (ht : t < 0) :
      FlatStep c p (.seek off whence) { n := p, err := some .invalidOffset } p
  | seekBad (p : Nat) (off : Int64) (whence : Int) (h : seekTarget c.length p off whence = none) :
      FlatStep c p (.seek off whence) { n := 0, err := some .badWhence } p

/-- A history of calls on a flat reader. -/
inductive FlatRun (c : Bytes) : Nat → List ROp → List Res → Nat → Prop
  | nil (p : Nat) : FlatRun c p [] [] p
  | cons {p p' p'' : Nat} {op : ROp} {r : Res} {ops : List ROp} {rs : List Res}
      (h : FlatStep c p op r p') (t : FlatRun c p' ops rs p'') : FlatRun c p (op :: ops) (r :: rs) p''

/-- A writer that never fails. -/
def goodWriter (w : Writer) : Prop := ∀ i, w i = none

/-- No `WriteTo` of the history uses a writer that can fail. -/
def GoodWriters (ops : List ROp) : Prop := ∀ w, ROp.writeTo w ∈ ops → goodWriter w

/-- From fetch `t` on, the network delivers every block it is asked for. -/
def WorksFrom (net : Net) (t : Nat) : Prop := ∀ u, t ≤ u → ∀ x, net u x = true

/-- A call on a flat reader that may also be cut short by a block that cannot be fetched: it still
delivers the next bytes in order, and only then reports the error. -/
inductive CutStep (c : Bytes) : Nat → ROp → Res → Nat → Prop
  | whole {p : Nat} {op : ROp} {r : Res} {p' : Nat} (h : FlatStep c p op r p') : CutStep c p op r p'
  | read (p k m : Nat) (hm : m < k ∨ m = 0) (hle : m ≤ (c.drop p).length) :
      CutStep c p (.read k) { bytes := (c.drop p).take m, n := m, err := some .notFound } (p + m)
  | writeTo (p : Nat) (w : Writer) (m : Nat) (hle : m ≤ (c.drop p).length) :
      CutStep c p (.writeTo w) { bytes := (c.drop p).take m, n := m, err := some .notFound } (p + m)

/-- A history of calls, some of them cut short. -/
inductive CutRun (c : Bytes) : Nat → List ROp → List Res → Nat → Prop
  | nil (p : Nat) : CutRun c p [] [] p
  | cons {p p' p'' : Nat} {op : ROp} {r : Res} {ops : List ROp} {rs : List Res}
      (h : CutStep c p op r p') (t : CutRun c p' ops rs p'') : CutRun c p (op :: ops) (r :: rs) p''

/-- No `Seek` of the history failed for want of a block. -/
def NoSeekFailed (ops : List ROp) (rs : List Res) : Prop :=
  ∀ (i : Nat) (off : Int64) (whence : Int) (r : Res), ops[i]? = some (ROp.seek off whence) → rs[i]? = some r → r.err ≠ some Err.notFound

/-- `Opens n x`: opening `n` for reading reads the file `x`. Raw blocks and nodes of type File or Raw
are files; a Metadata node stands for the node its first link points to. -/
inductive Opens : Node → Node → Prop
  | raw (d : Bytes) (b : Builder) : Opens (.raw d b) (.raw d b)
  | file (d : Bytes) (ls : List Link) (b : Builder) (m : Pb.Data) (hm : Pb.Data.unmarshal d = .ok m) (hf : IsFileMsg m) :
      Opens (.proto d ls b) (.proto d ls b)
  | metadata (d : Bytes) (l : Link) (ls : List Link) (b : Builder) (m : Pb.Data) (x : Node) (hm : Pb.Data.unmarshal d = .ok m)
      (ht : m.typ = some TMetadata) (hp : l.target.isProto = true) (h : Opens l.target x) : Opens (.proto d (l :: ls) b) x

/-- The size a file node records for itself. -/
def RecordedSize (x : Node) (s : UInt64) : Prop :=
  match x with
  | .raw d _ => s = UInt64.ofNat d.length
  | .proto d _ _ => ∃ m, Pb.Data.unmarshal d = .ok m ∧ s = m.filesize.getD 0
  | .other _ => False

end Unixfs.Spec
