import Verif.Spec.Reader

/-!
# Specification: where the blocks of a file are (C77, C78, C92)
-/

namespace Unixfs.Spec
open Unixfs

/-- `At x s y`: in the file `x`, the bytes of the block `y` begin at byte `s`. (A block may occur more
than once.) -/
inductive At : Node → Nat → Node → Prop
  | here (x : Node) : At x 0 x
  | child {x y : Node} {l : Link} {pre post : List Link} {a : Bytes} {s : Nat} (hl : x.links = pre ++ l :: post) (ha : contentL pre = some a)
      (h : At l.target s y) : At x (a.length + s) y

/-- The block `y` of file `x` has bytes in the range from `a` up to, and not including, `b`; or it is
empty and lies within it. -/
def Needed (x : Node) (a b : Nat) (y : Node) : Prop := ∃ s, At x s y ∧ s < b ∧ (a ≤ s ∨ a < s + contentLen y)

/-- The block `y` of file `x` begins before byte `b` and ends after byte `a`. -/
def Overlaps (x : Node) (a b : Nat) (y : Node) : Prop := ∃ s, At x s y ∧ s < b ∧ a < s + contentLen y

/-- The block `y` of file `x` begins at or before byte `s`, and is a child of a block with that byte. -/
def BesideCut (x : Node) (s : Nat) (y : Node) : Prop :=
  ∃ p i pre l post a, At x i p ∧ i ≤ s ∧ s < i + contentLen p ∧ p.links = pre ++ l :: post ∧ contentL pre = some a ∧ i + a.length ≤ s ∧ y = l.target

/-- From fetch `t` on, the network delivers every block of the set `S`. -/
def Serves (net : Net) (t : Nat) (S : Node → Prop) : Prop := ∀ u, t ≤ u → ∀ y, S y → net u y = true

end Unixfs.Spec
