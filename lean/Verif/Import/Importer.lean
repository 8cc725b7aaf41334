import Verif.Import.Balanced
import Verif.Import.Trickle

/-!
# Model of `/repo/importer/importer.go`
-/

namespace Unixfs.Import

/-- importer.go:19-29 `BuildDagFromReader`, for a splitter that will deliver `chunks` and then EOF
(`fin = none`) or the error `fin`, and a DAG service that accepts `budget` nodes (`none`: all). `fuel`
bounds the loops of `balanced.Layout`; see C13. -/
def buildDag (fuel : Nat) (chunks : List Bytes) (fin : Option Err) (budget : Option Nat) : Except Err (Node × DB) :=
  match Params.new { maxlinks := defaultLinksPerBlock } none chunks fin with
  | .error e => .error e
  | .ok db =>
    match Balanced.layout fuel { db with addBudget := budget } with
    | .error e => .error e
    | .ok (root, db') => .ok (root.node, db')

/-- importer.go:35-46 `BuildTrickleDagFromReader`, likewise. -/
def buildTrickleDag (fuel : Nat) (chunks : List Bytes) (fin : Option Err) (budget : Option Nat) : Except Err (Node × DB) :=
  match Params.new { maxlinks := defaultLinksPerBlock } none chunks fin with
  | .error e => .error e
  | .ok db => Trickle.layout fuel { db with addBudget := budget }

end Unixfs.Import
