import Verif.Spec.Access
import Verif.Reader.Run

/-!
# Helper lemmas for C107: how many blocks a reader asks for

The definitions in this file belong to proofs; they model no code.
-/

namespace Unixfs.Reader
open Unixfs Unixfs.Spec

variable {σ : Type}

/-- The leaves after the children that the frames stand at. -/
def above : List Frame → List Nat
  | [] => []
  | f :: up => leafSizesL (f.node.links.drop (f.idx + 1)) ++ above up

/-- The leaves ahead of a walker. -/
def ahead (root : Node) : List Frame → List Nat
  | [] => leafSizes root
  | f :: up => leafSizesL (f.node.links.drop f.idx) ++ above up

/-- The nodes below the frames that come after the children that they stand at. -/
def nodesAbove : List Frame → Nat
  | [] => 0
  | f :: up => Link.countL (f.node.links.drop (f.idx + 1)) + nodesAbove up

/-- The nodes that a walker has not asked for. -/
def nodesAhead (root : Node) : List Frame → Nat
  | [] => Link.countL root.links
  | f :: up => Link.countL (f.node.links.drop f.idx) + nodesAbove up

def Deep (H : Nat) : List Frame → Prop
  | [] => True
  | f :: up => up.length + height f.node ≤ H ∧ Deep H up

theorem leafSizes_links {n : Node} (h : n.links ≠ []) : leafSizes n = leafSizesL n.links := by
  cases n with
  | proto d ls b =>
    cases ls with
    | nil => exact absurd rfl h
    | cons l ls => simp [leafSizes, Node.links]
  | raw d b => exact absurd rfl h
  | other d => exact absurd rfl h

theorem leafSizes_data {n : Node} (h : n.links = []) {d : Bytes} (hd : readUnixFSNodeData n = .ok d) : leafSizes n = [d.length] := by
  cases n with
  | raw x b => cases hd; simp [leafSizes]
  | other x => cases hd
  | proto x ls b =>
    cases h
    simp only [readUnixFSNodeData, FSNode.fromBytes] at hd
    cases hp : Pb.Data.unmarshal x with
    | error e => rw [hp] at hd; cases hd
    | ok p =>
      rw [hp] at hd
      simp only [leafSizes, hp]
      dsimp only at hd
      split at hd
      · cases hd; rfl
      · cases hd

theorem leafSizes_leaf {n : Node} (h : n.links = []) : ∃ k, leafSizes n = [k] := by
  cases n with
  | raw x b => exact ⟨_, by rw [leafSizes]⟩
  | other x => exact ⟨_, by rw [leafSizes]⟩
  | proto x ls b =>
    cases h
    rw [leafSizes]
    split <;> exact ⟨_, rfl⟩

mutual
theorem leafSizes_ne : ∀ n : Node, leafSizes n ≠ []
  | .raw d b => by simp [leafSizes]
  | .other d => by simp [leafSizes]
  | .proto d [] b => by rw [leafSizes]; split <;> simp
  | .proto d (l :: ls) b => by rw [leafSizes]; exact leafSizesL_ne l ls
theorem leafSizesL_ne : ∀ (l : Link) (ls : List Link), leafSizesL (l :: ls) ≠ []
  | .mk nm sz n, ls => by simp [leafSizesL, leafSizes_ne n]
end

theorem leafSizesL_cons (l : Link) (ls : List Link) : leafSizesL (l :: ls) = leafSizes l.target ++ leafSizesL ls := by
  cases l; rw [leafSizesL]; rfl

theorem leafSizesL_append : ∀ (a b : List Link), leafSizesL (a ++ b) = leafSizesL a ++ leafSizesL b
  | [], b => by simp [leafSizesL]
  | l :: a, b => by rw [List.cons_append, leafSizesL_cons, leafSizesL_cons, leafSizesL_append a b, List.append_assoc]

theorem countL_append : ∀ (a b : List Link), Link.countL (a ++ b) = Link.countL a + Link.countL b
  | [], b => by simp [Link.countL]
  | l :: a, b => by rw [List.cons_append, countL_cons, countL_cons, countL_append a b]; omega

theorem height_child {n : Node} {i : Nat} {l : Link} (h : n.links[i]? = some l) : height l.target + 1 ≤ height n := by
  cases n with
  | raw d b => cases h
  | other d => cases h
  | proto d ls b =>
    have h : ls[i]? = some l := h
    show height l.target + 1 ≤ height (.proto d ls b)
    simp only [height]
    clear * - h
    induction ls generalizing i with
    | nil => cases h
    | cons x ls ih =>
      obtain ⟨nm, sz, n⟩ := x
      rw [heightL]
      cases i with
      | zero => cases h; exact Nat.le_max_left _ _
      | succ i => exact le_trans (ih (by simpa using h)) (Nat.le_max_right _ _)

theorem drop_child {n : Node} {i : Nat} {l : Link} (h : n.links[i]? = some l) : n.links.drop i = l :: n.links.drop (i + 1) := by
  obtain ⟨hi, e⟩ := List.getElem?_eq_some_iff.mp h
  rw [← e]; exact List.drop_eq_getElem_cons hi

theorem drop_none {n : Node} {i : Nat} (h : n.links[i]? = none) : n.links.drop i = [] ∧ n.links.drop (i + 1) = [] := by
  have := List.getElem?_eq_none_iff.mp h
  exact ⟨List.drop_eq_nil_of_le this, List.drop_eq_nil_of_le (by omega)⟩

/-- Climbing keeps what is ahead. -/
theorem climb_ahead (root : Node) (H : Nat) : ∀ (fs : List Frame), fs ≠ [] →
    (∃ f up, (climb fs).2 = f :: up) ∧ ahead root (climb fs).2 = above fs ∧ nodesAhead root (climb fs).2 = nodesAbove fs ∧ (Deep H fs → Deep H (climb fs).2)
  | [], h => absurd rfl h
  | f :: rest, _ => by
    have hn : f.node.links.drop (nextIdx f) = f.node.links.drop (f.idx + 1) := by
      unfold nextIdx
      split
      · rfl
      next h => rw [List.drop_eq_nil_of_le (by omega), List.drop_eq_nil_of_le (by omega)]
    have hend : nextIdx f = f.node.links.length → f.node.links.drop (f.idx + 1) = [] := by
      intro h; rw [← hn, h]; simp
    rw [climb.eq_def]
    dsimp only
    split
    next h =>
      have he := hend h
      cases rest with
      | nil => exact ⟨⟨_, _, rfl⟩, by simp [ahead, above, hn], by simp [nodesAhead, nodesAbove, hn], fun hd => ⟨by simpa using hd.1, trivial⟩⟩
      | cons g up =>
        obtain ⟨h0, h1, h2, h3⟩ := climb_ahead root H (g :: up) (by simp)
        refine ⟨h0, ?_, ?_, fun hd => h3 hd.2⟩
        · show ahead root (climb (g :: up)).2 = _
          rw [h1]
          show _ = leafSizesL (f.node.links.drop (f.idx + 1)) ++ above (g :: up)
          rw [he]; simp [leafSizesL]
        · show nodesAhead root (climb (g :: up)).2 = _
          rw [h2]
          show _ = Link.countL (f.node.links.drop (f.idx + 1)) + nodesAbove (g :: up)
          rw [he]; simp [Link.countL]
    · exact ⟨⟨_, _, rfl⟩, by simp [ahead, above, hn], by simp [nodesAhead, nodesAbove, hn], fun hd => ⟨hd.1, hd.2⟩⟩

/-- Where a walker can be. -/
def Stands (root : Node) (path : List Frame) : Prop := Deep (height root) path ∧ ahead root path <:+ leafSizes root

theorem stands_nil (root : Node) : Stands root [] := ⟨trivial, List.suffix_refl _⟩

theorem suffix_drop (n : Node) (i : Nat) : n.links = [] ∨ leafSizesL (n.links.drop i) <:+ leafSizes n := by
  by_cases h : n.links = []
  · exact .inl h
  · refine .inr ⟨leafSizesL (n.links.take i), ?_⟩
    rw [← leafSizesL_append, List.take_append_drop, leafSizes_links h]

theorem suffix_node (n : Node) (i : Nat) (r : List Nat) : leafSizesL (n.links.drop i) ++ r <:+ leafSizes n ++ r := by
  rcases suffix_drop n i with h | ⟨a, h⟩
  · rw [h, List.drop_nil]
    exact ⟨leafSizes n, by simp [leafSizesL]⟩
  · exact ⟨a, by rw [← h, List.append_assoc]⟩

theorem countL_drop (n : Node) (i : Nat) : Link.countL (n.links.drop i) ≤ Link.countL n.links := by
  conv => rhs; rw [← List.take_append_drop i n.links, countL_append]
  omega

def missed : Option Err → Nat
  | some .notFound => 1
  | _ => 0

def missedD : Down → Nat
  | .err e => missed (some e)
  | _ => 0

def missedW : WalkEnd → Nat
  | .err e => missed (some e)
  | _ => 0

/-- One step down: what is ahead shrinks, and every block asked for and received is one fewer. -/
theorem down_stands (net : Net) (root : Node) (v : Visitor σ) (w : WS σ) (h : Stands root w.path) :
    Stands root (down net root v w).2.path ∧ w.tick ≤ (down net root v w).2.tick ∧
    (down net root v w).2.tick + nodesAhead root (down net root v w).2.path ≤
      w.tick + nodesAhead root w.path + missedD (down net root v w).1 ∧
    ((down net root v w).1 = .noChild → (down net root v w).2 = w ∧ ∃ f up, w.path = f :: up ∧ f.node.links[f.idx]? = none) := by
  unfold down
  split
  next hp =>
    rw [hp] at h
    unfold visitChild
    generalize v root w.s = r
    obtain ⟨r, i, s'⟩ := r
    have hc := countL_drop root i
    refine ⟨⟨⟨by simp, trivial⟩, ?_⟩, Nat.le_refl _, ?_, ?_⟩
    · have := suffix_node root i []; simpa [ahead, above] using this
    · rw [hp]
      simp only [nodesAhead, nodesAbove]
      omega
    · cases r <;> exact fun h => by cases h
  next n i up hp =>
    split
    next hl => exact ⟨h, Nat.le_refl _, by simp, fun _ => ⟨rfl, _, _, hp, hl⟩⟩
    next l hl =>
      have hdr := drop_child hl
      split
      · unfold visitChild
        generalize v l.target w.s = r
        obtain ⟨r, j, s'⟩ := r
        rw [hp] at h ⊢
        obtain ⟨⟨d1, d2⟩, hs⟩ := h
        have hh := height_child hl
        have hc := countL_drop l.target j
        have hct := count_links l.target
        dsimp only at d1
        refine ⟨⟨⟨by simp only [List.length_cons]; omega, d1, d2⟩, ?_⟩, Nat.le_succ _, ?_, ?_⟩
        · refine List.IsSuffix.trans ?_ hs
          simp only [ahead, above]
          rw [hdr, leafSizesL_cons, List.append_assoc]
          exact suffix_node _ _ _
        · simp only [nodesAhead, nodesAbove]
          rw [hdr, countL_cons]
          omega
        · cases r <;> exact fun h => by cases h
      · refine ⟨h, Nat.le_succ _, ?_, fun h => by cases h⟩
        simp only [missedD, missed]; omega

theorem climb_stands {root : Node} {w : WS σ} {f : Frame} {up : List Frame} (hp : w.path = f :: up) (hl : f.node.links[f.idx]? = none) (h : Stands root w.path) :
    Stands root (climb w.path).2 ∧ ahead root (climb w.path).2 = ahead root w.path ∧ nodesAhead root (climb w.path).2 = nodesAhead root w.path := by
  obtain ⟨-, h1, h2, h3⟩ := climb_ahead root (height root) w.path (by rw [hp]; simp)
  obtain ⟨e1, e2⟩ := drop_none hl
  have a1 : above w.path = ahead root w.path := by rw [hp]; simp only [above, ahead]; rw [e1, e2]
  have a2 : nodesAbove w.path = nodesAhead root w.path := by rw [hp]; simp only [nodesAbove, nodesAhead]; rw [e1, e2]
  exact ⟨⟨h3 h.1, by rw [h1, a1]; exact h.2⟩, by rw [h1, a1], by rw [h2, a2]⟩

theorem iterate_stands (net : Net) (root : Node) (v : Visitor σ) : ∀ (k : Nat) (w : WS σ), Stands root w.path →
    Stands root (iterate net root v k w).2.path ∧ w.tick ≤ (iterate net root v k w).2.tick ∧
    (iterate net root v k w).2.tick + nodesAhead root (iterate net root v k w).2.path ≤
      w.tick + nodesAhead root w.path + missedW (iterate net root v k w).1
  | 0, w, h => ⟨h, Nat.le_refl _, Nat.le_add_right _ _⟩
  | k + 1, w, h => by
    rw [iterate]
    have hd := down_stands net root v w h
    generalize down net root v w = o at hd ⊢
    obtain ⟨r, w'⟩ := o
    obtain ⟨g1, g2, g3, g4⟩ := hd
    cases r with
    | ok =>
      obtain ⟨i1, i2, i3⟩ := iterate_stands net root v k w' g1
      refine ⟨i1, le_trans g2 i2, ?_⟩
      simp only [missedD] at g3
      dsimp only
      omega
    | paused => exact ⟨g1, g2, g3⟩
    | err e => exact ⟨g1, g2, g3⟩
    | noChild =>
      obtain ⟨e, f, up, hp, hl⟩ := g4 rfl
      dsimp only at e
      subst e
      obtain ⟨c1, c2, c3⟩ := climb_stands hp hl h
      dsimp only
      generalize climb w'.path = c at c1 c2 c3
      obtain ⟨b, p⟩ := c
      cases b with
      | true =>
        obtain ⟨i1, i2, i3⟩ := iterate_stands net root v k { w' with path := p } c1
        refine ⟨i1, i2, ?_⟩
        dsimp only at i3 c3 ⊢
        rw [c3] at i3
        exact i3
      | false => exact ⟨c1, Nat.le_refl _, by dsimp only; dsimp only at c3; omega⟩

/-- `Seek` goes down one path. -/
theorem walkSeek_stands (net : Net) (root : Node) (v : Visitor σ) : ∀ (k : Nat) (w : WS σ), Stands root w.path →
    Stands root (walkSeek net root v k w).2.path ∧ w.tick ≤ (walkSeek net root v k w).2.tick ∧
    (walkSeek net root v k w).2.tick + (w.path.length - 1) ≤ w.tick + height root
  | 0, w, h => by
    refine ⟨h, Nat.le_refl _, ?_⟩
    rw [walkSeek]
    cases hp : w.path with
    | nil => simp
    | cons f up =>
      rw [hp] at h
      have := h.1.1
      simp only [List.length_cons]
      omega
  | k + 1, w, h => by
    have hlen : w.tick + (w.path.length - 1) ≤ w.tick + height root := by
      cases hp : w.path with
      | nil => simp
      | cons f up =>
        rw [hp] at h
        have := h.1.1
        simp only [List.length_cons]
        omega
    rw [walkSeek]
    have hd := down_stands net root v w h
    have ht : (down net root v w).2.tick + (w.path.length - 1) ≤ w.tick + height root ∧ ((down net root v w).1 = .ok → (down net root v w).2.tick + (w.path.length - 1) ≤ w.tick + ((down net root v w).2.path.length - 1)) := by
      unfold down
      split
      next hp =>
        unfold visitChild
        simp [hp]
      next n i up hp =>
        split
        next hl => exact ⟨hlen, fun h => by cases h⟩
        next l hl =>
          have hh := height_child hl
          rw [hp] at h
          have := h.1.1
          dsimp only at this
          split
          · unfold visitChild
            rw [hp]
            simp only [List.length_cons]
            omega
          · rw [hp]
            simp only [List.length_cons]
            exact ⟨by omega, fun h => by cases h⟩
    generalize down net root v w = o at hd ht ⊢
    obtain ⟨r, w'⟩ := o
    obtain ⟨g1, g2, g3, g4⟩ := hd
    cases r with
    | ok =>
      obtain ⟨i1, i2, i3⟩ := walkSeek_stands net root v k w' g1
      have := ht.2 rfl
      dsimp only at this ⊢
      exact ⟨i1, le_trans g2 i2, by omega⟩
    | paused => exact ⟨g1, g2, ht.1⟩
    | err e => exact ⟨g1, g2, ht.1⟩
    | noChild => exact ⟨g1, g2, ht.1⟩

/-- How many leaves a read of `k` bytes needs at most. -/
def leavesFor (s k : Nat) (r : List Nat) : Nat := if r = [] then 0 else k / s + 1

theorem leavesFor_ne {s k : Nat} {r : List Nat} (h : r ≠ []) : leavesFor s k r = k / s + 1 := if_neg h

theorem dropLast_tail {s : Nat} {r r' : List Nat} (h : r' <:+ r) (hr : ∀ x ∈ r.dropLast, s ≤ x) : ∀ x ∈ r'.dropLast, s ≤ x := by
  obtain ⟨a, rfl⟩ := h
  intro x hx
  refine hr x ?_
  by_cases hr' : r' = []
  · rw [hr'] at hx; cases hx
  · rw [List.dropLast_append_of_ne_nil hr']
    exact List.mem_append_right _ hx

/-- What `Read` costs. -/
theorem read_cost (net : Net) (root : Node) {s : Nat} (hs : 0 < s) : ∀ (k : Nat) (w : WS RS) (f : Frame) (up : List Frame), w.path = f :: up → Stands root w.path →
    (∀ x ∈ (ahead root w.path).dropLast, s ≤ x) →
    (iterate net root readVisitor k w).2.tick + (if f.node.links[f.idx]? = none then 0 else up.length) ≤ w.tick + height root * leavesFor s w.s.space (ahead root w.path)
  | 0, w, f, up, hp, h, hx => by
    rw [iterate]
    dsimp only
    split
    · omega
    next hl =>
      obtain ⟨l, hl⟩ := Option.ne_none_iff_exists'.mp hl
      rw [hp] at h ⊢
      rw [leavesFor_ne (by simp only [ahead]; rw [drop_child hl, leafSizesL_cons]; simp [leafSizes_ne])]
      have := h.1.1
      rw [Nat.mul_succ]
      omega
  | k + 1, w, f, up, hp, h, hx => by
    rw [iterate]
    have hd := down_stands net root readVisitor w h
    cases hl : f.node.links[f.idx]? with
    | none =>
      have e : down net root readVisitor w = (.noChild, w) := by
        unfold down
        rw [hp]
        obtain ⟨n, i⟩ := f
        dsimp only at hl ⊢
        rw [hl]
      rw [e]
      dsimp only
      obtain ⟨c1, c2, c3⟩ := climb_stands hp hl h
      obtain ⟨⟨g, up', hc⟩, -⟩ := climb_ahead root (height root) w.path (by rw [hp]; simp)
      generalize climb w.path = c at c1 c2 c3 hc
      obtain ⟨b, p⟩ := c
      cases b with
      | true =>
        have ih := read_cost net root hs k { w with path := p } g up' hc c1 (by dsimp only at c2 ⊢; rw [c2]; exact hx)
        dsimp only at ih c2 ⊢
        rw [c2] at ih
        simp only [if_true]
        omega
      | false =>
        simp
    | some l =>
      have hdr := drop_child hl
      have hne : ahead root w.path ≠ [] := by rw [hp]; simp only [ahead]; rw [hdr, leafSizesL_cons]; simp [leafSizes_ne]
      have hh := height_child hl
      have hlen : up.length + height f.node ≤ height root := by rw [hp] at h; exact h.1.1
      have hb : height root + height root * (leavesFor s w.s.space (ahead root w.path) - 1) = height root * leavesFor s w.s.space (ahead root w.path) := by
        rw [leavesFor_ne hne, Nat.add_sub_cancel, Nat.mul_succ]; omega
      rw [if_neg (by simp)]
      have hdown : down net root readVisitor w = if net w.tick l.target then visitChild readVisitor l.target w.path (w.tick + 1) w.s else (.err .notFound, { w with tick := w.tick + 1 }) := by
        unfold down
        rw [hp]
        obtain ⟨n, i⟩ := f
        dsimp only at hl ⊢
        rw [hl]
      have hst := hd.1
      rw [hdown] at hst ⊢
      clear hd
      by_cases hnet : net w.tick l.target
      · rw [if_pos hnet] at hst ⊢
        unfold visitChild at hst ⊢
        by_cases hcl : l.target.links = []
        · have hv : readVisitor l.target w.s = match readUnixFSNodeData l.target with
              | .error e => (.fail e, 0, w.s)
              | .ok d => (if (RS.readBuf { w.s with cur := some d }).space = 0 then .pause else .cont, 0, RS.readBuf { w.s with cur := some d }) := by
            unfold readVisitor
            rw [if_neg (by simpa using hcl)]
            cases readUnixFSNodeData l.target <;> rfl
          rw [hv] at hst ⊢
          cases hrd : readUnixFSNodeData l.target with
          | error e => dsimp only; omega
          | ok d =>
            rw [hrd] at hst
            dsimp only at hst ⊢
            by_cases hsp : (RS.readBuf { w.s with cur := some d }).space = 0
            · rw [if_pos hsp]; dsimp only; omega
            · rw [if_neg hsp]
              dsimp only
              have hspace : (RS.readBuf { w.s with cur := some d }).space = w.s.space - min w.s.space d.length := by simp [RS.readBuf]
              have hahead : ahead root (⟨l.target, 0⟩ :: w.path) = above w.path := by simp [ahead, hcl, leafSizesL]
              have hold : ahead root w.path = d.length :: above w.path := by
                rw [hp]
                simp only [ahead, above]
                rw [hdr, leafSizesL_cons, leafSizes_data hcl hrd]; rfl
              have ih := read_cost net root hs k { path := ⟨l.target, 0⟩ :: w.path, tick := w.tick + 1, s := RS.readBuf { w.s with cur := some d } } ⟨l.target, 0⟩ w.path rfl hst
                (dropLast_tail ⟨[d.length], by dsimp only; rw [hahead, hold]; rfl⟩ hx)
              dsimp only at ih
              rw [hahead, hspace, if_pos (by rw [hcl]; rfl)] at ih
              refine le_trans (Nat.add_le_add_right (by simpa using ih) _) ?_
              by_cases hab : above w.path = []
              · rw [hab, show leavesFor s (w.s.space - min w.s.space d.length) [] = 0 from if_pos rfl, Nat.mul_zero]
                omega
              · have hds : s ≤ d.length := hx _ (by rw [hold, List.dropLast_cons_of_ne_nil hab]; simp)
                have hlt : d.length < w.s.space := by rw [hspace] at hsp; omega
                have : leavesFor s (w.s.space - min w.s.space d.length) (above w.path) ≤ leavesFor s w.s.space (ahead root w.path) - 1 := by
                  rw [leavesFor_ne hab, leavesFor_ne hne, Nat.add_sub_cancel]
                  have h1 : (w.s.space - min w.s.space d.length) ≤ w.s.space - s := by omega
                  have h2 := Nat.div_le_div_right (c := s) h1
                  have h3 := Nat.div_eq_sub_div hs (show s ≤ w.s.space by omega)
                  omega
                have := Nat.mul_le_mul_left (height root) this
                omega
        · have hv : readVisitor l.target w.s = (.cont, 0, w.s) := by unfold readVisitor; rw [if_pos hcl]
          rw [hv] at hst ⊢
          dsimp only at hst ⊢
          have hahead : ahead root (⟨l.target, 0⟩ :: w.path) = ahead root w.path := by
            rw [hp]
            simp only [ahead, above, List.drop_zero]
            rw [hdr, leafSizesL_cons, leafSizes_links hcl, List.append_assoc]
          have ih := read_cost net root hs k { path := ⟨l.target, 0⟩ :: w.path, tick := w.tick + 1, s := w.s } ⟨l.target, 0⟩ w.path rfl hst
            (by dsimp only; rw [hahead]; exact hx)
          dsimp only at ih
          rw [hahead, if_neg (by
            cases hq : l.target.links with
            | nil => exact absurd hq hcl
            | cons a b => simp), hp, List.length_cons] at ih
          rw [hp]
          omega
      · rw [if_neg hnet]; dsimp only; omega

/-- What `Read` costs at the start. -/
theorem read_cost_start (net : Net) (root : Node) {s : Nat} (hs : 0 < s) (k : Nat) (w : WS RS) (hp : w.path = []) (hx : ∀ x ∈ (leafSizes root).dropLast, s ≤ x) :
    (iterate net root readVisitor k w).2.tick ≤ w.tick + height root * (w.s.space / s + 1) := by
  cases k with
  | zero => rw [iterate]; exact Nat.le_add_right _ _
  | succ k =>
    rw [iterate]
    have hdown : down net root readVisitor w = visitChild readVisitor root [] w.tick w.s := by unfold down; rw [hp]
    have hst := (down_stands net root readVisitor w (by rw [hp]; exact stands_nil root)).1
    rw [hdown] at hst ⊢
    unfold visitChild at hst ⊢
    by_cases hcl : root.links = []
    · have hv : readVisitor root w.s = match readUnixFSNodeData root with
          | .error e => (.fail e, 0, w.s)
          | .ok d => (if (RS.readBuf { w.s with cur := some d }).space = 0 then .pause else .cont, 0, RS.readBuf { w.s with cur := some d }) := by
        unfold readVisitor
        rw [if_neg (by simpa using hcl)]
        cases readUnixFSNodeData root <;> rfl
      rw [hv] at hst ⊢
      cases hrd : readUnixFSNodeData root with
      | error e => dsimp only; omega
      | ok d =>
        rw [hrd] at hst
        dsimp only at hst ⊢
        by_cases hsp : (RS.readBuf { w.s with cur := some d }).space = 0
        · rw [if_pos hsp]; dsimp only; omega
        · rw [if_neg hsp]
          dsimp only
          have ha : ahead root [⟨root, 0⟩] = [] := by simp [ahead, above, hcl, leafSizesL]
          have ih := read_cost net root hs k { path := [⟨root, 0⟩], tick := w.tick, s := RS.readBuf { w.s with cur := some d } } ⟨root, 0⟩ [] rfl hst
            (by dsimp only; rw [ha]; simp)
          dsimp only at ih
          rw [ha, show ∀ x, leavesFor s x [] = 0 from fun x => if_pos rfl] at ih
          omega
    · have hv : readVisitor root w.s = (.cont, 0, w.s) := by unfold readVisitor; rw [if_pos hcl]
      rw [hv] at hst ⊢
      dsimp only at hst ⊢
      have ha : ahead root [⟨root, 0⟩] = leafSizes root := by simp [ahead, above, leafSizes_links hcl]
      have ih := read_cost net root hs k { path := [⟨root, 0⟩], tick := w.tick, s := w.s } ⟨root, 0⟩ [] rfl hst (by dsimp only; rw [ha]; exact hx)
      dsimp only at ih
      rw [ha, leavesFor_ne (leafSizes_ne root)] at ih
      omega

theorem read_cost_any (net : Net) (root : Node) {s : Nat} (hs : 0 < s) (k : Nat) (w : WS RS) (h : Stands root w.path) (hx : ∀ x ∈ (leafSizes root).dropLast, s ≤ x) :
    (iterate net root readVisitor k w).2.tick ≤ w.tick + height root * (w.s.space / s + 1) := by
  cases hp : w.path with
  | nil => exact read_cost_start net root hs k w hp hx
  | cons f up =>
    have := read_cost net root hs k w f up hp h (dropLast_tail h.2 hx)
    have hle : leavesFor s w.s.space (ahead root w.path) ≤ w.s.space / s + 1 := by
      unfold leavesFor
      generalize w.s.space / s = q
      split <;> omega
    have := Nat.mul_le_mul_left (height root) hle
    omega

theorem read_cases (net : Net) (dr : DR) (k : Nat) : (dr.read net k).2.root = dr.root ∧
    (((dr.read net k).2.path = dr.path ∧ (dr.read net k).2.tick = dr.tick) ∨
    ∃ w : WS RS, w.path = dr.path ∧ w.tick = dr.tick ∧ w.s.space ≤ k ∧ (dr.read net k).2.path = (iterate net dr.root readVisitor (walkFuel dr.root) w).2.path ∧
      (dr.read net k).2.tick = (iterate net dr.root readVisitor (walkFuel dr.root) w).2.tick ∧
      (dr.read net k).1.err = match (iterate net dr.root readVisitor (walkFuel dr.root) w).1 with | .paused => none | .endOfDag => some .eof | .err e => some e) := by
  unfold DR.read
  dsimp only
  have hk : (if dr.cur.isSome then RS.readBuf ⟨dr.cur, dr.offset, [], k⟩ else ⟨dr.cur, dr.offset, [], k⟩ : RS).space ≤ k := by
    split
    · simp [RS.readBuf]
    · exact Nat.le_refl _
  generalize (if dr.cur.isSome then RS.readBuf ⟨dr.cur, dr.offset, [], k⟩ else ⟨dr.cur, dr.offset, [], k⟩ : RS) = s at hk ⊢
  split
  · exact ⟨rfl, .inl ⟨rfl, rfl⟩⟩
  · exact ⟨rfl, .inr ⟨{ path := dr.path, tick := dr.tick, s := s }, rfl, rfl, hk, rfl, rfl, rfl⟩⟩

/-- What one call does to the position of a reader. -/
theorem step_stands (net : Net) (dr : DR) (op : ROp) (h : Stands dr.root dr.path) :
    (dr.step net op).2.root = dr.root ∧ Stands dr.root (dr.step net op).2.path ∧ dr.tick ≤ (dr.step net op).2.tick := by
  cases op with
  | read k =>
    simp only [DR.step]
    obtain ⟨e, ⟨e1, e2⟩ | ⟨w, e1, e2, -, e3, e4, -⟩⟩ := read_cases net dr k
    · exact ⟨e, by rw [e1]; exact h, by omega⟩
    · obtain ⟨h1, h2, -⟩ := iterate_stands net dr.root readVisitor (walkFuel dr.root) w (by rw [e1]; exact h)
      exact ⟨e, by rw [e3]; exact h1, by omega⟩
  | writeTo w =>
    simp only [DR.step, DR.writeTo]
    generalize (if dr.cur.isSome = true then _ else _ : Bool × TS) = o
    obtain ⟨b, s⟩ := o
    cases b with
    | false => exact ⟨rfl, h, Nat.le_refl _⟩
    | true =>
      obtain ⟨h1, h2, -⟩ := iterate_stands net dr.root (writeVisitor w) (walkFuel dr.root) { path := dr.path, tick := dr.tick, s := s } h
      exact ⟨rfl, h1, h2⟩
  | seek off wh =>
    have hs : ∀ o : Int, (dr.seekStart net o).2.root = dr.root ∧ Stands dr.root (dr.seekStart net o).2.path ∧ dr.tick ≤ (dr.seekStart net o).2.tick := by
      intro o
      unfold DR.seekStart
      split
      · exact ⟨rfl, h, Nat.le_refl _⟩
      split
      · exact ⟨rfl, h, Nat.le_refl _⟩
      dsimp only
      split
      · exact ⟨rfl, stands_nil _, Nat.le_refl _⟩
      · obtain ⟨h1, h2, -⟩ := walkSeek_stands net dr.root seekVisitor (walkFuel dr.root) { path := [], tick := dr.tick, s := { left := o.toNat, cur := none } } (stands_nil _)
        generalize walkSeek net dr.root seekVisitor (walkFuel dr.root) { path := [], tick := dr.tick, s := { left := o.toNat, cur := none } } = r at h1 h2
        obtain ⟨r, w⟩ := r
        cases r <;> exact ⟨rfl, h1, h2⟩
    simp only [DR.step, DR.seek]
    split
    · exact hs _
    split
    · split
      · exact ⟨rfl, h, Nat.le_refl _⟩
      · exact hs _
    split
    · exact hs _
    · exact ⟨rfl, h, Nat.le_refl _⟩

theorem run_stands (net : Net) : ∀ (ops : List ROp) (dr : DR), Stands dr.root dr.path →
    (dr.run net ops).2.root = dr.root ∧ Stands dr.root (dr.run net ops).2.path ∧ dr.tick ≤ (dr.run net ops).2.tick
  | [], dr, h => ⟨rfl, h, Nat.le_refl _⟩
  | op :: ops, dr, h => by
    obtain ⟨h1, h2, h3⟩ := step_stands net dr op h
    obtain ⟨g1, g2, g3⟩ := run_stands net ops (dr.step net op).2 (by rw [h1]; exact h2)
    rw [h1] at g1 g2
    exact ⟨g1, g2, le_trans h3 g3⟩

/-- What `Seek` costs. -/
theorem seek_cost (net : Net) (dr : DR) (off : Int) (wh : Int) : (dr.seek net off wh).2.tick ≤ dr.tick + height dr.root := by
  have hs : ∀ o : Int, (dr.seekStart net o).2.tick ≤ dr.tick + height dr.root := by
    intro o
    unfold DR.seekStart
    split
    · exact Nat.le_add_right _ _
    split
    · exact Nat.le_add_right _ _
    dsimp only
    split
    · exact Nat.le_add_right _ _
    · obtain ⟨-, -, h3⟩ := walkSeek_stands net dr.root seekVisitor (walkFuel dr.root) { path := [], tick := dr.tick, s := { left := o.toNat, cur := none } } (stands_nil _)
      generalize walkSeek net dr.root seekVisitor (walkFuel dr.root) { path := [], tick := dr.tick, s := { left := o.toNat, cur := none } } = r at h3
      obtain ⟨r, w⟩ := r
      cases r <;> (dsimp only at h3 ⊢; omega)
  unfold DR.seek
  split
  · exact hs _
  split
  · split
    · exact Nat.le_add_right _ _
    · exact hs _
  split
  · exact hs _
  · exact Nat.le_add_right _ _

/-- What `Read` costs, anywhere. -/
theorem dr_read_cost (net : Net) (dr : DR) (h : Stands dr.root dr.path) {s : Nat} (hs : 0 < s) (hx : Coarse s dr.root) (k : Nat) :
    (dr.read net k).2.tick ≤ dr.tick + height dr.root * (k / s + 1) := by
  obtain ⟨e, ⟨e1, e2⟩ | ⟨w, e1, e2, hk, e3, e4, -⟩⟩ := read_cases net dr k
  · omega
  · have := read_cost_any net dr.root hs (walkFuel dr.root) w (by rw [e1]; exact h) hx
    rw [← e4, e2] at this
    exact le_trans this (Nat.add_le_add_left (Nat.mul_le_mul_left _ (Nat.add_le_add_right (Nat.div_le_div_right hk) _)) _)

/-- Reading on never asks for a block again, unless it was not received. -/
theorem step_once (net : Net) (dr : DR) (op : ROp) (h : Stands dr.root dr.path) (hop : ∀ off wh, op ≠ .seek off wh) :
    (dr.step net op).2.tick + nodesAhead dr.root (dr.step net op).2.path ≤
      dr.tick + nodesAhead dr.root dr.path + missed (dr.step net op).1.err := by
  cases op with
  | seek off wh => exact absurd rfl (hop off wh)
  | read k =>
    simp only [DR.step]
    obtain ⟨e, ⟨e1, e2⟩ | ⟨w, e1, e2, -, e3, e4, e5⟩⟩ := read_cases net dr k
    · rw [e1, e2]; exact Nat.le_add_right _ _
    · obtain ⟨-, -, h3⟩ := iterate_stands net dr.root readVisitor (walkFuel dr.root) w (by rw [e1]; exact h)
      rw [e3, e4, e5]
      rw [e1, e2] at h3
      refine le_trans h3 (Nat.add_le_add_left ?_ _)
      generalize (iterate net dr.root readVisitor (walkFuel dr.root) w).1 = r
      cases r <;> simp [missedW, missed]
  | writeTo w =>
    simp only [DR.step, DR.writeTo]
    generalize ho : (if dr.cur.isSome then TS.writeBuf w ⟨dr.cur, dr.offset, [], 0⟩ else (true, ⟨dr.cur, dr.offset, [], 0⟩) : Bool × TS) = o
    obtain ⟨b, s⟩ := o
    cases b with
    | false => exact Nat.le_add_right _ _
    | true =>
      obtain ⟨-, -, h3⟩ := iterate_stands net dr.root (writeVisitor w) (walkFuel dr.root) { path := dr.path, tick := dr.tick, s := s } h
      dsimp only at h3 ⊢
      refine le_trans h3 (Nat.add_le_add_left ?_ _)
      generalize (iterate net dr.root (writeVisitor w) (walkFuel dr.root) { path := dr.path, tick := dr.tick, s := s }).1 = r
      cases r <;> simp [missedW, missed]

theorem run_once (net : Net) : ∀ (ops : List ROp) (dr : DR), Stands dr.root dr.path → (∀ off wh, ROp.seek off wh ∉ ops) →
    (dr.run net ops).2.tick ≤ dr.tick + nodesAhead dr.root dr.path + (dr.run net ops).1.countP (fun r => r.err = some .notFound)
  | [], dr, _, _ => by simp only [DR.run]; omega
  | op :: ops, dr, h, hop => by
    obtain ⟨h1, h2, h3⟩ := step_stands net dr op h
    have h4 := step_once net dr op h (fun off wh e => hop off wh (by rw [e]; simp))
    have ih := run_once net ops (dr.step net op).2 (by rw [h1]; exact h2) (fun off wh e => hop off wh (by simp [e]))
    rw [h1] at ih
    show ((dr.step net op).2.run net ops).2.tick ≤ dr.tick + nodesAhead dr.root dr.path + ((dr.step net op).1 :: ((dr.step net op).2.run net ops).1).countP _
    rw [List.countP_cons]
    have hm : missed (dr.step net op).1.err ≤ if decide ((dr.step net op).1.err = some .notFound) = true then 1 else 0 := by
      unfold missed
      split
      next e => simp [e]
      · exact Nat.zero_le _
    omega

end Unixfs.Reader
