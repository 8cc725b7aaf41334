import Verif.Spec.Import
import Verif.Spec.Bytes

/-!
# The published form of an imported file (C112)

The two layouts of the UnixFS specification and the bytes of their nodes. The definitions in this file belong to statements; they model no code.
-/

namespace Unixfs.Spec
open Unixfs Unixfs.Import

/-- A part of a file: a node, and how many bytes of the file are below it. -/
structure Part where
  node : Node
  bytes : Nat

/-- The leaf for a chunk: a raw block, or a node of type `typ` with the chunk and its length. -/
def leafPart (p : Params) (typ : UInt8) (chunk : Bytes) : Part :=
  ⟨if p.rawLeaves then .raw chunk (rawBuilder p) else .proto ([0x08, typ] ++ str 0x12 chunk ++ num 0x18 chunk.length) [] (protoBuilder p), chunk.length⟩

/-- The node above some parts: type 2 (file), the number of bytes below it and the number of bytes below each part; nameless links to the parts, with
their cumulative sizes. -/
def innerPart (p : Params) (parts : List Part) : Part :=
  ⟨.proto ([0x08, 2] ++ num 0x18 (parts.map Part.bytes).sum ++ parts.flatMap (fun q => num 0x20 q.bytes))
    (parts.map (fun q => .mk [] q.node.size q.node)) (protoBuilder p), (parts.map Part.bytes).sum⟩

/-- `gs` are the groups of `m` successive elements of `l`; the last one may be smaller. -/
inductive Groups {α : Type} (m : Nat) : List α → List (List α) → Prop
  | last {l : List α} (h : l ≠ []) (hl : l.length ≤ m) : Groups m l [l]
  | cons {g l : List α} {gs : List (List α)} (hg : g.length = m) (h : l ≠ []) (hs : Groups m l gs) : Groups m (g ++ l) (g :: gs)

/-- The balanced layout: nodes are put above groups of `m` successive nodes, level by level, until one node is left. -/
inductive BalancedForm {α : Type} (inner : List α → α) (m : Nat) : List α → α → Prop
  | one (x : α) : BalancedForm inner m [x] x
  | level {l : List α} {gs : List (List α)} {x : α} (h : 2 ≤ l.length) (hg : Groups m l gs) (hx : BalancedForm inner m (gs.map inner) x) :
      BalancedForm inner m l x

/-- The trickle layout. The first `m` children of a node are leaves, the next 4 are nodes of layer 1, the next 4 of layer 2 and so on. A node of layer
`d` has children in layers below `d` only. All children but the last are full, and so is everything in a full node: it has all children that it can have. The
first argument is the layer of the node (`none` for the root, which has no limit), the second whether it is full, the third the chunks below it. -/
inductive TrickleForm {α : Type} (leaf : Bytes → α) (inner : List α → α) (m : Nat) : Option Nat → Bool → List Bytes → α → Prop
  | mk {layer : Option Nat} {full : Bool} (kids : List (List Bytes × α))
      (hleaf : ∀ i k, kids[i]? = some k → i < m → ∃ c, k = ([c], leaf c))
      (hsub : ∀ i k, kids[i]? = some k → m ≤ i → TrickleForm leaf inner m (some ((i - m) / 4 + 1)) (full || decide (i + 1 < kids.length)) k.1 k.2)
      (hlayer : ∀ d, layer = some d → kids ≠ [] ∧ kids.length ≤ m + 4 * (d - 1) ∧ (full = true → kids.length = m + 4 * (d - 1))) :
      TrickleForm leaf inner m layer full (kids.flatMap Prod.fst) (inner (kids.map Prod.snd))

end Unixfs.Spec
