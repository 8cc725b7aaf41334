import Verif.Spec.Append
import Verif.Spec.Import
import Verif.Import.Balanced
import Verif.Import.Trickle
import Verif.Spec.ModFile

/-!
# Specification vocabulary for C108

The definitions in this file belong to statements; they model no code.
-/

namespace Unixfs.Spec
open Unixfs Unixfs.Import Unixfs.Mod

/-- The nodes of a builder's store. -/
def nodesOf (db : DB) : List Node := db.added.map Built.node

/-- `n` is a file that was imported and then changed any number of times; `c` is what a plain byte array would
hold after the same calls, and `S` are the nodes that all of them have stored. `grow`: the file may be made
longer. The DAG service, the splitter, and what can be fetched may be others each time. -/
inductive Kept : (S : List Node) → (n : Node) → (c : Bytes) → (grow : Bool) → Prop
  /-- The empty file of `EmptyFileNode`, stored by its maker. -/
  | empty : Kept [emptyFileNode] emptyFileNode [] true
  /-- `balanced.Layout`. -/
  | balanced {p path chunks fin budget db fuel root db'} : Fresh p path chunks fin budget db → 2 ≤ p.maxlinks → chunks.flatten.length < 2 ^ 63 →
      Balanced.layout fuel db = .ok (root, db') →
      Kept (nodesOf db') root.node chunks.flatten (decide (p.maxlinks ≤ 174 ∧ 2 ≤ chunks.length))
  /-- `trickle.Layout`. -/
  | trickle {p path chunks fin budget db fuel n db'} : Fresh p path chunks fin budget db → 1 ≤ p.maxlinks → chunks.flatten.length < 2 ^ 63 →
      Trickle.layout fuel db = .ok (n, db') →
      Kept (nodesOf db') n chunks.flatten (decide (p.maxlinks ≤ 174))
  /-- `trickle.Append`, whose caller stores the new root. -/
  | append {S base c p path chunks fin budget db get fuel h n db'} : Kept S base c true →
      Fresh p path chunks fin budget db → p.maxlinks = 174 → (c ++ chunks.flatten).length < 2 ^ 63 →
      Trickle.append fuel h base { db with canGet := get } = .ok (n, db') →
      Kept (S ++ nodesOf db' ++ [n]) n (c ++ chunks.flatten) true
  /-- A new `DagModifier`: careful calls, none of which returns an error (but `Read` may return EOF), and `GetNode`. -/
  | session {S root c grow env ops n} : Kept S root c grow → SplitOK env → CarefulRun (grow = true) ⟨c, 0⟩ {} ops →
      List.Forall₂ Fine (ops ++ [.getNode]) (results env root (ops ++ [.getNode])) →
      (results env root (ops ++ [.getNode])).getLast? = some { node := some n } →
      Kept (S ++ storedBy env root (ops ++ [.getNode])) n ((⟨c, 0⟩ : File).after ops).data grow
  /-- Something else is stored, for example by calls that fail. -/
  | more {S S' n c grow} : Kept S n c grow → (∀ x ∈ S, x ∈ S') → Kept S' n c grow

end Unixfs.Spec
