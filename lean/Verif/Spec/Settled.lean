import Verif.Spec.OneTree

/-!
# The node of a tree, given all settings (C116)

The definitions in this file belong to statements; they model no code.
-/

namespace Unixfs.Spec
open Unixfs Unixfs.Hamt Unixfs.Import

/-- What a client settles before it publishes trees. -/
structure Settings where
  /-- The parameters of imports: links per node, raw leaves, CID builder. -/
  params : Params
  /-- The trickle layout instead of the balanced one. -/
  trickle : Bool
  /-- How contents are cut into chunks. -/
  cut : Bytes → List Bytes
  /-- The CID builder of directories and symbolic links. -/
  builder : Builder
  /-- Which directories are HAMTs, with `2 ^ lg` slots. This must not depend on the order of the entries. -/
  width : List Entry → Option Nat
  width_perm : ∀ {es es'}, es.Perm es' → width es = width es'

/-- The node of a directory: a plain one with its links sorted by name, as they are when it is encoded, or a HAMT. -/
def DirWith (H : Hash) (S : Settings) (es : List Entry) (nd : Node) : Prop :=
  match S.width es with
  | none => ∃ ls, ls.Perm (es.map entryLink) ∧ (ls.map Link.name).Pairwise (· < ·) ∧ nd = .proto [0x08, 1] ls S.builder
  | some lg => 3 ≤ lg ∧ lg ≤ 10 ∧ HamtForm H lg S.builder 0 es nd

/-- `nd` is the tree in the UnixFS format with the settings `S`. Links record the cumulative sizes. -/
inductive TreeWith (H : Hash) (S : Settings) : Tree → Node → Prop
  | balanced {c : Bytes} {x : Part} (hl : S.trickle = false) (hcut : (S.cut c).flatten = c) (hfit : AllFit (S.cut c)) (hlen : c.length < 2 ^ 63)
      (h : BalancedForm (innerPart S.params) S.params.maxlinks ((S.cut c).map (leafPart S.params 2)) x) : TreeWith H S (.file c) x.node
  | empty (hl : S.trickle = false) (hcut : S.cut [] = []) :
      TreeWith H S (.file []) (if S.params.rawLeaves then .raw [] (rawBuilder S.params) else .proto [0x08, 2, 0x18, 0] [] (protoBuilder S.params))
  | trickle {c : Bytes} {x : Part} (hl : S.trickle = true) (hcut : (S.cut c).flatten = c) (hfit : AllFit (S.cut c)) (hlen : c.length < 2 ^ 63)
      (h : TrickleForm (leafPart S.params 0) (innerPart S.params) S.params.maxlinks none false (S.cut c) x) : TreeWith H S (.file c) x.node
  | symlink {target : Bytes} (hl : target.length < 2 ^ 63) : TreeWith H S (.symlink target) (.proto ([0x08, 4] ++ str 0x12 target) [] S.builder)
  | dir {es : List Entry} {nd : Node} {ts : List (Bytes × Tree)} (h : DirWith H S es nd) (hu : (es.map Prod.fst).Nodup) (hne : [] ∉ es.map Prod.fst)
      (hsize : ∀ e ∈ es, e.2.1 = e.2.2.size) (hnames : ts.map Prod.fst = es.map Prod.fst)
      (hsub : ∀ (i : Nat) t e, ts[i]? = some t → es[i]? = some e → TreeWith H S t.2 e.2.2) : TreeWith H S (.dir ts) nd

/-- The node as it is encoded: the links of a plain directory are sorted. -/
def Encoded (n nd : Node) : Prop :=
  if n.dataBytes = [0x08, 1] then ∃ ls ls' b, n = .proto [0x08, 1] ls b ∧ nd = .proto [0x08, 1] ls' b ∧ ls'.Perm ls ∧ (ls'.map Link.name).Pairwise (· < ·)
  else nd = n

end Unixfs.Spec
