import Verif.Spec.Import
import Verif.Import.Trickle

/-! # Specification vocabulary for `trickle.Append` (C16–C18, C57, C58) -/

namespace Unixfs.Spec
open Unixfs.Import

mutual
/-- `n` can be appended to: an internal file node without data of its own, and if it has more than
`m` children, so can its last child. Every trickle DAG built with `m` links per node satisfies this. -/
def Appendable (m : Nat) : Node → Prop
  | .proto d ls _ => (∃ msg, Pb.Data.unmarshal d = .ok msg ∧ msg.data.getD [] = []) ∧ (m < ls.length → AppendableLast m ls)
  | _ => False
def AppendableLast (m : Nat) : List Link → Prop
  | [] => True
  | .mk _ _ n :: ls => (ls = [] → Appendable m n) ∧ AppendableLast m ls
end

mutual
/-- `n` can be appended to even after it was cut off anywhere: an internal file node without data of
its own whose children beyond the first `m` are of the same kind. Every trickle DAG built with `m`
links per node satisfies this, and so does every node without data and at most `m` children. -/
def Growable (m : Nat) : Node → Prop
  | .proto d ls _ => (∃ msg, Pb.Data.unmarshal d = .ok msg ∧ msg.data.getD [] = []) ∧ GrowableFrom m 0 ls
  | _ => False
def GrowableFrom (m : Nat) : Nat → List Link → Prop
  | _, [] => True
  | i, .mk _ _ n :: ls => (m ≤ i → Growable m n) ∧ GrowableFrom m (i + 1) ls
end

mutual
/-- Height of a DAG. -/
def height : Node → Nat
  | .proto _ ls _ => heightL ls
  | _ => 0
def heightL : List Link → Nat
  | [] => 0
  | .mk _ _ n :: ls => max (height n + 1) (heightL ls)
end

/-- `OnSpine m x y`: `y` is the last child of `x`, or of its last child, and so on, where each of the
parents has more than `m` children. -/
inductive OnSpine (m : Nat) : Node → Node → Prop
  | last {x : Node} {pre : List Link} {l : Link} (hl : x.links = pre ++ [l]) (hm : m < x.links.length) : OnSpine m x l.target
  | down {x y : Node} {pre : List Link} {l : Link} (hl : x.links = pre ++ [l]) (hm : m < x.links.length) (h : OnSpine m l.target y) : OnSpine m x y

theorem OnSpine.reach {m : Nat} {x y : Node} (h : OnSpine m x y) : Reach x y := by
  induction h with
  | last hl _ => exact .step (by rw [hl]; simp) (.refl _)
  | down hl _ _ ih => exact .step (by rw [hl]; simp) ih

/-- The data blocks of a file: its leaves that hold bytes, left to right. -/
def blocks (n : Node) : List Node := (leaves n).filter (fun x => contentLen x ≠ 0)

/-- `n` was made by one `trickle.Layout` followed by any number of `trickle.Append`s, with the same
options but arbitrary splitters, stores and unavailable blocks; `c` is the concatenation of all data
fed in. The bounds `fuel`, `h` of the model are arbitrary: only successful calls count. -/
inductive Made (p : Params) : Node → Bytes → Prop
  | layout {path chunks fin budget db fuel n db'} : Fresh p path chunks fin budget db →
      Trickle.layout fuel db = .ok (n, db') → Made p n chunks.flatten
  | append {base c path chunks fin budget db g fuel h n db'} : Made p base c → Fresh p path chunks fin budget db →
      Trickle.append fuel h base { db with canGet := g } = .ok (n, db') → Made p n (c ++ chunks.flatten)

end Unixfs.Spec

