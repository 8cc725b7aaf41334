import Verif.Spec.File

/-!
# Specification: what a crash can leave in the block store (C73–C75)
-/

namespace Unixfs.Spec

/-- `st` are the blocks given to the store, in this order; `old` tells which blocks the store had
before. Whenever the process stops, whatever the store has received by then is complete: all that is
below a block in it is in it, or was there before. -/
def CrashSafe (old : Node → Prop) (st : List Node) : Prop :=
  ∀ k, ∀ x ∈ st.take k, ∀ y, Reach x y → y ∈ st.take k ∨ old y

/-- The blocks below a node. -/
def Below (n x : Node) : Prop := ∃ l ∈ n.links, Reach l.target x

/-- All that is below a block of `old` is in `old`. -/
def Complete (old : Node → Prop) : Prop := ∀ x y, old x → Reach x y → old y

end Unixfs.Spec
