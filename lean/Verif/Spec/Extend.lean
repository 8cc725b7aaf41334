import Verif.Spec.Mod
import Verif.Mod.DagModifier

/-! # Calls that fail all or nothing (C99)

The definitions in this file belong to statements; they model no code.
-/

namespace Unixfs.Spec
open Unixfs.Mod

/-- The calls of C99: `Truncate`, and `Seek` relative to the beginning, to a length or position that is not
negative. -/
def Resizes : MOp → Prop
  | .truncate s => 0 ≤ s.toInt
  | .seek off whence => 0 ≤ off.toInt ∧ whence = 0
  | _ => False

/-- What the call makes of the file `c`: `Truncate` gives it the length asked for, `Seek` extends it with zeros
if the position is behind its end. -/
def made (c : Bytes) : MOp → Bytes
  | .truncate s => resize c s.toInt.toNat
  | .seek off _ => c ++ zeros (off.toInt.toNat - c.length)
  | _ => c

/-- `AllOrNothing c calls d`: starting with the bytes `c`, calls that reported success did what they are for,
calls that reported an error did it or did nothing, and the outcome is `d`. -/
inductive AllOrNothing : Bytes → List (MOp × MRes) → Bytes → Prop
  | nil {c : Bytes} : AllOrNothing c [] c
  | did {c d : Bytes} {op : MOp} {r : MRes} {rest} (h : AllOrNothing (made c op) rest d) : AllOrNothing c ((op, r) :: rest) d
  | not {c d : Bytes} {op : MOp} {r : MRes} {rest} (hr : r.err ≠ none) (h : AllOrNothing c rest d) : AllOrNothing c ((op, r) :: rest) d

end Unixfs.Spec
