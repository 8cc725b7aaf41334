import Verif.Reader.Access
import Verif.Props.Range
import Verif.Props.BlockSize
import Verif.Props.AppendSame
import Verif.Mod.Shorten

/-!
# C107: what random access to a file costs

The definitions in this file belong to statements; they model no code.
-/

namespace Unixfs.Import
open Unixfs Unixfs.Spec

mutual
/-- No inner node is without children. -/
def T.Solid : T → Prop
  | .leaf _ => True
  | .node ts => ts ≠ [] ∧ T.SolidL ts
def T.SolidL : List T → Prop
  | [] => True
  | t :: ts => t.Solid ∧ T.SolidL ts
end

theorem T.solidL_of : ∀ {ts : List T}, (∀ t ∈ ts, t.Solid) → T.SolidL ts
  | [], _ => trivial
  | t :: _, h => ⟨h t (by simp), T.solidL_of (fun t' h' => h t' (by simp [h']))⟩

theorem T.SolidL.mem : ∀ {ts : List T}, T.SolidL ts → ∀ t ∈ ts, t.Solid
  | _ :: _, h, t, hm => by
    rcases List.mem_cons.mp hm with rfl | hm
    · exact h.1
    · exact h.2.mem t hm

theorem leafSizes_content {n : Node} (hl : n.links = []) {d : Bytes} (hd : content n = some d) : leafSizes n = [d.length] := by
  cases n with
  | raw x b => simp only [content] at hd; cases hd; simp [leafSizes]
  | other x => simp [content] at hd
  | proto x ls b =>
    cases hl
    simp only [content] at hd
    simp only [leafSizes]
    split at hd
    next m hm =>
      rw [hm]
      split at hd
      · cases hd; rfl
      · cases hd
    · cases hd

mutual
theorem leafSizes_toNode (c : Cfg) (hc : c.OK) : ∀ (t : T), t.Lim → t.Solid → leafSizes (t.toNode c) = t.chunks.map List.length
  | .leaf d, h, _ => by
    simp only [T.toNode, T.chunks]
    exact leafSizes_content (leafNode_links c d) (content_leafNode c hc d h)
  | .node [], _, hs => absurd rfl hs.1
  | .node (t :: ts), h, hs => by
    simp only [T.toNode, T.chunks, T.toLinks, leafSizes]
    exact leafSizesL_toLinks c hc (t :: ts) h hs.2
theorem leafSizesL_toLinks (c : Cfg) (hc : c.OK) : ∀ (ts : List T), T.LimL ts → T.SolidL ts → leafSizesL (T.toLinks c ts) = (T.chunksL ts).map List.length
  | [], _, _ => by simp [T.toLinks, leafSizesL, T.chunksL]
  | t :: ts, h, hs => by
    simp only [T.toLinks, T.chunksL, List.map_append, makeLink, leafSizesL]
    rw [leafSizes_toNode c hc t h.1 hs.1, leafSizesL_toLinks c hc ts h.2 hs.2]
end

theorem Balanced.Full.solid {m : Nat} (hm : 0 < m) : ∀ {d : Nat} {t : T}, Full m d t → t.Solid
  | 0, _, ⟨c, h⟩ => by subst h; trivial
  | d + 1, t, ⟨ts, he, hl, hf⟩ => by
    subst he
    exact ⟨by rintro rfl; simp at hl; omega, T.solidL_of (fun t ht => Balanced.Full.solid hm (hf t ht))⟩

theorem Balanced.Left.solid {m : Nat} (hm : 0 < m) : ∀ {d : Nat} {t : T}, Left m d t → t.Solid
  | 0, _, ⟨c, h⟩ => by subst h; trivial
  | d + 1, t, ⟨pre, last, he, hl, hf, hlast⟩ => by
    subst he
    refine ⟨by simp, T.solidL_of (fun t ht => ?_)⟩
    rcases List.mem_append.mp ht with h | h
    · exact Balanced.Full.solid hm (hf t h)
    · rw [List.mem_singleton.mp h]; exact Balanced.Left.solid hm hlast

theorem Trickle.TF.solid {m D : Nat} {t : T} (hm : 0 < m) (h : Trickle.TF m D t) : t.Solid := by
  induction h with
  | leaf c => trivial
  | node D ts hl h ih =>
    refine ⟨by rintro rfl; simp at hl; omega, T.solidL_of (fun t ht => ?_)⟩
    obtain ⟨i, hi⟩ := List.mem_iff_getElem?.mp ht
    exact ih i t hi

theorem Trickle.TG.solid {m D : Nat} {t : T} (hm : 0 < m) (h : Trickle.TG m D t) : t.Solid := by
  induction h with
  | leaf c => trivial
  | node D pre last hl h _ ih =>
    refine ⟨by simp, T.solidL_of (fun t ht => ?_)⟩
    rcases List.mem_append.mp ht with h' | h'
    · obtain ⟨i, hi⟩ := List.mem_iff_getElem?.mp h'
      exact (h i t hi).solid hm
    · rw [List.mem_singleton.mp h']; exact ih

end Unixfs.Import

namespace Unixfs.Props
open Unixfs Unixfs.Spec Unixfs.Reader Unixfs.Import

theorem height_depth : ∀ (d : Nat) (n : Node), DepthLE d n → height n ≤ d := by
  have hL : ∀ (ls : List Link) (d : Nat), (∀ l ∈ ls, height l.target ≤ d) → heightL ls ≤ d + 1 := by
    intro ls d h
    induction ls with
    | nil => simp [heightL]
    | cons l ls ih =>
      obtain ⟨nm, sz, n⟩ := l
      rw [heightL]
      exact max_le (Nat.succ_le_succ (h (.mk nm sz n) (by simp))) (ih (fun x hx => h x (by simp [hx])))
  intro d
  induction d with
  | zero =>
    intro n h
    cases n with
    | proto d ls b => have : ls = [] := h; subst this; simp [height, heightL]
    | raw d b => simp [height]
    | other d => simp [height]
  | succ d ih =>
    intro n h
    cases n with
    | proto x ls b => simp only [height]; exact hL ls d (fun l hl => ih _ (h l hl))
    | raw x b => simp [height]
    | other x => simp [height]

theorem full_depth {m : Nat} : ∀ (d : Nat) (n : Node), FullAt m d n → DepthLE d n
  | 0, _, h => h
  | d + 1, n, h => fun l hl => full_depth d _ (h.2 l hl)

theorem balanced_depth {m : Nat} : ∀ (d : Nat) (n : Node), BalancedAt m d n → DepthLE d n
  | 0, _, h => h
  | d + 1, n, ⟨pre, last, he, hl, hf, hlast⟩ => by
    intro l hm
    rw [he] at hm
    rcases List.mem_append.mp hm with h | h
    · exact full_depth d _ (hf l h)
    · rw [List.mem_singleton.mp h]; exact balanced_depth d _ hlast

section
variable {net : Net} {t : Nat} {n : Node} {dr : DR}

theorem fetches_stands (hd : newDagReader net t n = .ok dr) (ops : List ROp) : (dr.run net ops).2.root = dr.root ∧ Stands dr.root (dr.run net ops).2.path := by
  obtain ⟨_, _, h3, _⟩ := open_conv net n t dr hd
  obtain ⟨h1, h2, _⟩ := run_stands net ops dr (by rw [h3]; exact stands_nil _)
  exact ⟨h1, h2⟩

/-- C107: after any calls, `Seek` asks for at most as many blocks as the DAG is high. -/
theorem C107_seek (hd : newDagReader net t n = .ok dr) (ops : List ROp) (off : Int64) (wh : Int) :
    fetches net (dr.run net ops).2 [.seek off wh] ≤ height dr.root := by
  obtain ⟨h1, h2⟩ := fetches_stands hd ops
  have := seek_cost net (dr.run net ops).2 off.toInt wh
  rw [h1] at this
  show ((dr.run net ops).2.seek net off.toInt wh).2.tick - _ ≤ _
  omega

/-- C107: after any calls, reading `k` bytes asks for at most `k / s + 1` times as many blocks as the DAG is high,
if every leaf but the last holds at least `s` bytes. -/
theorem C107_read (hd : newDagReader net t n = .ok dr) {s : Nat} (hs : 0 < s) (hx : Coarse s dr.root) (ops : List ROp) (k : Nat) :
    fetches net (dr.run net ops).2 [.read k] ≤ height dr.root * (k / s + 1) := by
  obtain ⟨h1, h2⟩ := fetches_stands hd ops
  have := dr_read_cost net (dr.run net ops).2 (by rw [h1]; exact h2) hs (by rw [h1]; exact hx) k
  rw [h1] at this
  show ((dr.run net ops).2.read net k).2.tick - _ ≤ _
  omega

/-- C107: random access. -/
theorem C107_random (hd : newDagReader net t n = .ok dr) {s : Nat} (hs : 0 < s) (hx : Coarse s dr.root) (ops : List ROp) (off : Int64) (wh : Int) (k : Nat) :
    fetches net (dr.run net ops).2 [.seek off wh, .read k] ≤ height dr.root * (k / s + 2) := by
  obtain ⟨h1, h2⟩ := fetches_stands hd ops
  have a1 := seek_cost net (dr.run net ops).2 off.toInt wh
  obtain ⟨b1, b2, -⟩ := step_stands net (dr.run net ops).2 (.seek off wh) (by rw [h1]; exact h2)
  rw [h1] at b1 b2 a1
  have a2 := dr_read_cost net ((dr.run net ops).2.step net (.seek off wh)).2 (by rw [b1]; exact b2) hs (by rw [b1]; exact hx) k
  rw [b1] at a2
  show (((dr.run net ops).2.step net (.seek off wh)).2.read net k).2.tick - _ ≤ _
  have e : ((dr.run net ops).2.step net (.seek off wh)).2.tick = ((dr.run net ops).2.seek net off.toInt wh).2.tick := rfl
  rw [Nat.mul_add] at a2 ⊢
  omega

/-- C107: reading and copying from the start on asks for every block at most once, and again only after a failure. -/
theorem C107_once (hd : newDagReader net t n = .ok dr) (ops : List ROp) (hops : ∀ off wh, ROp.seek off wh ∉ ops) :
    fetches net dr ops ≤ dr.root.count - 1 + (dr.run net ops).1.countP (fun r => r.err = some .notFound) := by
  obtain ⟨_, _, h3, _⟩ := open_conv net n t dr hd
  have := run_once net ops dr (by rw [h3]; exact stands_nil _) hops
  rw [h3] at this
  simp only [nodesAhead] at this
  have hc := count_links dr.root
  unfold fetches
  omega

end

section
variable {p : Params} {path : Option Bytes} {chunks : List Bytes} {fin : Option Err} {budget : Option Nat} {db db' : DB} {fuel : Nat} {net : Net} {t : Nat} {dr : DR}

theorem reader_root {n : Node} (hs : SizesTrue n) (hd : newDagReader net t n = .ok dr) : dr.root = n := by
  obtain ⟨ho, _⟩ := open_conv net n t dr hd
  generalize dr.root = r at ho
  cases ho with
  | raw => rfl
  | file => rfl
  | metadata d l ls b m x hm ht hp h =>
    obtain ⟨m', hm', hf, _⟩ := hs
    rw [hm] at hm'
    cases hm'
    rcases hf with hf | hf <;> (rw [ht] at hf; exact absurd hf (by decide))

/-- C107 for a file imported by `balanced.Layout` from chunks of at least `s` bytes (but the last). -/
theorem C107_balanced {root : Built} (hf : Fresh p path chunks fin budget db) (h2 : 2 ≤ p.maxlinks) (h : Balanced.layout fuel db = .ok (root, db'))
    {s d : Nat} (hs : 0 < s) (hx : ∀ x ∈ chunks.dropLast, s ≤ x.length) (hdep : chunks.length ≤ p.maxlinks ^ d)
    (hd : newDagReader net t root.node = .ok dr) (ops : List ROp) (off : Int64) (wh : Int) (k : Nat) :
    fetches net (dr.run net ops).2 [.seek off wh, .read k] ≤ d * (k / s + 2) := by
  have hroot := reader_root (C08_balanced_sizes hf h2 h) hd
  obtain ⟨d', hb, hmin⟩ := C09_balanced_shape hf h2 h
  have hh : height dr.root ≤ d := by rw [hroot]; exact le_trans (height_depth _ _ (balanced_depth _ _ hb)) (hmin d hdep)
  refine le_trans (C107_random hd hs ?_ ops off wh k) (Nat.mul_le_mul_right _ hh)
  rw [hroot]
  obtain ⟨hi, hp, hm, hr, hc, _⟩ := Fresh.facts hf
  obtain ⟨new, ha, hnm, hcase⟩ := balanced_ok hf h2 h
  rcases hcase with ⟨he, hn, _⟩ | ⟨t, d, hroot, hch, hleft, _⟩
  · obtain ⟨n, hn', _, _, hl, _⟩ := emptyLeaf p db hr hc
    rw [hn] at hn'
    injection hn' with hn'
    obtain ⟨x, hx⟩ := leafSizes_leaf (n := root.node) (by rw [hn']; exact hl)
    intro y hy
    rw [hx] at hy
    cases hy
  · rw [hroot, Fresh.cfg hf]
    unfold Coarse
    rw [leafSizes_toNode _ (cfgOK_file _ _) t (T.lim_of_chunks _ (by rw [hch]; exact ha.lim)) (hleft.solid (by omega)), hch, hp, ← List.map_dropLast]
    intro y hy
    obtain ⟨x, hx', rfl⟩ := List.mem_map.mp hy
    exact hx x hx'

/-- C107 for a file imported by `trickle.Layout`. -/
theorem C107_trickle {root : Node} (hf : Fresh p path chunks fin budget db) (h1 : 1 ≤ p.maxlinks) (h : Trickle.layout fuel db = .ok (root, db'))
    {s d : Nat} (hs : 0 < s) (hx : ∀ x ∈ chunks.dropLast, s ≤ x.length) (hdep : chunks.length ≤ p.maxlinks * 5 ^ d)
    (hd : newDagReader net t root = .ok dr) (ops : List ROp) (off : Int64) (wh : Int) (k : Nat) :
    fetches net (dr.run net ops).2 [.seek off wh, .read k] ≤ (d + 1) * (k / s + 2) := by
  have hroot := reader_root (C08_trickle_sizes hf h1 h) hd
  have hh : height dr.root ≤ d + 1 := by rw [hroot]; exact height_depth _ _ (C89_trickle (w := 0) (cid := fun _ => []) hf h1 h hdep).1
  refine le_trans (C107_random hd hs ?_ ops off wh k) (Nat.mul_le_mul_right _ hh)
  rw [hroot]
  obtain ⟨ts, e1, e2, e3⟩ := appendedAlike_tree h1 (.layout hf h)
  have hfit := (C12_trickle_no_truncation hf h1 h).2
  by_cases hne : ts = []
  · subst hne
    obtain ⟨x, hx⟩ := leafSizes_leaf (n := root) (by rw [e1]; simp [T.toNode, T.toLinks, Node.links])
    intro y hy
    rw [hx] at hy
    cases hy
  · unfold Coarse
    rw [e1, leafSizes_toNode _ (cfgOK_raw _ _) _ (T.lim_of_chunks _ (by simp only [T.chunks]; rw [e2]; exact hfit)) ((e3.root hne (Nat.le_refl _)).solid (by omega))]
    simp only [T.chunks]
    rw [e2, ← List.map_dropLast]
    intro y hy
    obtain ⟨x, hx', rfl⟩ := List.mem_map.mp hy
    exact hx x hx'

end

section Examples

def accessChunks : List Bytes := [[1, 2], [3, 4], [5, 6], [7, 8], [9]]

/-- The chunks as a balanced DAG with two links per node, of height 3. -/
def accessFile : Node :=
  match Balanced.layout 9 { maxlinks := 2, src := accessChunks, rawLeaves := false, cidBuilder := none } with | .ok (r, _) => r.node | .error _ => .other []

def accessNet : Net := fun _ _ => true

def accessFetches (ops ops' : List ROp) : Option Nat :=
  match newDagReader accessNet 0 accessFile with | .ok dr => some (fetches accessNet (dr.run accessNet ops).2 ops') | .error _ => none

example : (Balanced.layout 9 { maxlinks := 2, src := accessChunks, rawLeaves := false, cidBuilder := none }).toOption.isSome ∧
    height accessFile = 3 ∧ leafSizes accessFile = [2, 2, 2, 2, 1] ∧ accessFile.count = 11 := by decide +kernel

example : Fresh { maxlinks := 2 } none accessChunks none none { maxlinks := 2, src := accessChunks, rawLeaves := false, cidBuilder := none } ∧
    (∀ x ∈ accessChunks.dropLast, 2 ≤ x.length) ∧ accessChunks.length ≤ 2 ^ 3 := ⟨⟨_, rfl, rfl⟩, by decide, by decide⟩

/-- Seeking into the third chunk takes 3 blocks; reading three bytes there takes 1 more, and two more of the next
chunk take 3 more: the bound of `C107_read` is `3 * (2 / 2 + 1) = 6`. Reading everything takes each of the 10 blocks
below the root once. -/
example : accessFetches [] [.seek 5 0] = some 3 ∧ accessFetches [.seek 5 0] [.read 3] = some 1 ∧ accessFetches [.seek 5 0, .read 3] [.read 2] = some 3 ∧
    accessFetches [.read 4, .seek 5 0] [.seek 1 0, .read 3] = some 4 ∧ accessFetches [] [.read 4, .read 5, .read 1, .read 7] = some 10 := by decide +kernel

end Examples

end Unixfs.Props
