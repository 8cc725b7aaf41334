import Verif.Spec.AppendSame
import Verif.Spec.ModFile

/-!
# Specification vocabulary for C106

The definitions in this file belong to statements; they model no code.
-/

namespace Unixfs.Spec
open Unixfs Unixfs.Import Unixfs.Mod

/-- `n` was made by `trickle.Layout` and then changed any number of times: by `trickle.Append`, or by a new
`DagModifier` whose calls return no error and whose `GetNode` gives the next `n`. `chunks` are the bytes of the
file, cut as the importer and the splitters have cut them. Each change is one of those of C85, C101, C102 and
C103; the DAG service, the splitter and the fetches may be others each time. -/
inductive InSessions (p : Params) : Node → List Bytes → Prop
  | layout {path chunks fin budget db fuel n db'} : Fresh p path chunks fin budget db →
      Trickle.layout fuel db = .ok (n, db') → InSessions p n chunks
  | append {base old path new fin budget db g fuel h n db'} : InSessions p base old → Fresh p path new fin budget db →
      AddsAlike p.maxlinks old.length new.length → Trickle.append fuel h base { db with canGet := g } = .ok (n, db') →
      InSessions p n (old ++ new)
  /-- Careful calls inside the file. -/
  | overwrite {env root chunks ops n chunks'} : InSessions p root chunks → SplitOK env → chunks.flatten.length < 2 ^ 63 →
      CarefulRun False ⟨chunks.flatten, 0⟩ {} ops → (∀ op ∈ ops, ∀ s, op ≠ .truncate s) →
      List.Forall₂ Fine (ops ++ [.getNode]) (results env root (ops ++ [.getNode])) →
      (results env root (ops ++ [.getNode])).getLast? = some { node := some n } →
      CutAlike chunks ((⟨chunks.flatten, 0⟩ : File).after ops).data chunks' → InSessions p n chunks'
  /-- Such calls and a `Truncate` to a size inside a chunk. -/
  | truncate {env root chunks ops s n chunks'} : InSessions p root chunks → SplitOK env → chunks.flatten.length < 2 ^ 63 →
      CarefulRun False ⟨chunks.flatten, 0⟩ {} ops → (∀ op ∈ ops, ∀ s, op ≠ .truncate s) →
      0 ≤ s.toInt → s.toInt.toNat < chunks.flatten.length →
      List.Forall₂ Fine (ops ++ [.truncate s, .getNode]) (results env root (ops ++ [.truncate s, .getNode])) →
      (results env root (ops ++ [.truncate s, .getNode])).getLast? = some { node := some n } →
      CutShort chunks ((⟨chunks.flatten, 0⟩ : File).after ops).data s.toInt.toNat chunks' → InSessions p n chunks'
  /-- Such calls, a `Seek` into the file and a `Write` that goes beyond its end. -/
  | extend {env root chunks ops off b n chunks'} : InSessions p root chunks → SplitOK env → AllFit (env.split (b.drop (chunks.flatten.length - off.toInt.toNat))).1 →
      CarefulRun False ⟨chunks.flatten, 0⟩ {} ops → (∀ op ∈ ops, ∀ s, op ≠ .truncate s) →
      0 ≤ off.toInt → off.toInt.toNat ≤ chunks.flatten.length → chunks.flatten.length < off.toInt.toNat + b.length → off.toInt.toNat + b.length < 2 ^ 63 →
      AddsAlike p.maxlinks chunks.length (env.split (b.drop (chunks.flatten.length - off.toInt.toNat))).1.length →
      List.Forall₂ Fine (ops ++ [.seek off 0, .write b, .getNode]) (results env root (ops ++ [.seek off 0, .write b, .getNode])) →
      (results env root (ops ++ [.seek off 0, .write b, .getNode])).getLast? = some { node := some n } →
      CutAlike chunks ((overlay ((⟨chunks.flatten, 0⟩ : File).after ops).data off.toInt.toNat b).take chunks.flatten.length) chunks' →
      InSessions p n (chunks' ++ (env.split (b.drop (chunks.flatten.length - off.toInt.toNat))).1)

end Unixfs.Spec
