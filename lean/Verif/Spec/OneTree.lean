import Verif.Spec.TreePublished

/-!
# Trees that differ in the order of entries only (C115)

The definitions in this file belong to statements; they model no code.
-/

namespace Unixfs.Spec
open Unixfs

/-- The two trees are the same to a user: the same content, the same target, or under every name the same or nothing. -/
inductive SameTree : Tree → Tree → Prop
  | file (c : Bytes) : SameTree (.file c) (.file c)
  | symlink (target : Bytes) : SameTree (.symlink target) (.symlink target)
  | dir {es es' : List (Bytes × Tree)} (hn : ∀ k, es.lookup k = none ↔ es'.lookup k = none)
      (hs : ∀ k t t', es.lookup k = some t → es'.lookup k = some t' → SameTree t t') : SameTree (.dir es) (.dir es')

end Unixfs.Spec
