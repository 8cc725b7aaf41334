import Verif.Hamt.Walk
import Mathlib.Logic.Relation

/-!
# Specification: what an enumeration has to visit

`PartOf root p`: `p` belongs to the HAMT below `root`: a shard in memory, or a stored shard node.
`Entry s l`: `l` is an entry that shard `s` holds itself. `Faulty bad p`: `p` cannot be read.
-/

namespace Unixfs.Hamt

/-- A piece of a HAMT. -/
inductive Part where
  | shard (s : Shard)
  | stored (n : Node)

/-- `p.Has q`: `q` hangs directly below `p`. -/
inductive Part.Has : Part → Part → Prop
  /-- A sub-shard in memory. -/
  | child {s c : Shard} (h : Slot.child c ∈ s.slots) (hv : c.val = none) : Has (.shard s) (.shard c)
  /-- A link to a stored sub-shard. -/
  | link {s : Shard} {l : Link} (h : Slot.link l ∈ s.slots) (ht : childLinkType s.size l = .ok .shardLink) : Has (.shard s) (.stored l.target)
  /-- The shard in a stored node. -/
  | load {n : Node} {s : Shard} (h : newHamtFromDag n = .ok s) : Has (.stored n) (.shard s)

def PartOf (root : Shard) (p : Part) : Prop := Relation.ReflTransGen Part.Has (.shard root) p

/-- An entry of the directory that this shard holds itself. -/
inductive Entry (s : Shard) : Link → Prop
  | child {c : Shard} {v : Link} (h : Slot.child c ∈ s.slots) (hv : c.val = some v) : Entry s (.mk c.key v.tsize v.target)
  | link {l : Link} (h : Slot.link l ∈ s.slots) (ht : childLinkType s.size l = .ok .shardValueLink) :
      Entry s (.mk (l.name.drop (maxpadlen s.size)) l.tsize l.target)

/-- A node that the DAG service cannot deliver or that is no shard; a shard with a link that is
neither an entry nor a sub-shard. -/
def Faulty (bad : Node → Prop) : Part → Prop
  | .stored n => bad n ∨ ∃ e, newHamtFromDag n = .error e
  | .shard s => ∃ l e, Slot.link l ∈ s.slots ∧ (childLinkType s.size l = .error e ∨ (childLinkType s.size l = .ok .shardValueLink ∧ makeShardValue s.size l = .error e))

/-- All goroutines have returned and the consumer has its result. -/
def Walk.Finished (g : Walk) : Prop := g.main = .closed ∧ (∀ w ∈ g.workers, w = .exit) ∧ g.ret ≠ none

/-- The consumer reads to the end, as `EnumLinks` does. -/
def noStop : List Link → Bool := fun _ => false

end Unixfs.Hamt
