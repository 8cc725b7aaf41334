import Verif.Spec.Append
import Verif.Spec.ModFile

/-! # Specification vocabulary for files that grow over time (C97)

The definitions in this file belong to statements; they model no code.
-/

namespace Unixfs.Spec
open Unixfs.Import Unixfs.Mod

/-- `n` came about from `start` by any number of calls of `trickle.Append` with `m` links per node and
of histories of `DagModifier`s, in any order. Everything else is arbitrary: the chunks, the options,
the failures of the DAG service, except that it refuses no block that a modifier appends. (The modifier has a fixed number of links per node.) -/
inductive Grown (m : Nat) (start : Node) : Node → Prop
  | start : Grown m start start
  | append {p path chunks fin budget db g fuel h base n db'} : Grown m start base → Fresh p path chunks fin budget db → p.maxlinks = m →
      Trickle.append fuel h base { db with canGet := g } = .ok (n, db') → Grown m start n
  | edit {env root ops r n} : Grown m start root → m = defaultLinksPerBlock → AppendsStored env → r ∈ results env root ops → r.node = some n →
      Grown m start n

/-- The number of leaf blocks of a file. -/
def leafCount (n : Node) : Nat := (leaves n).length

end Unixfs.Spec
