import Verif.Props.Import
import Verif.Import.BlockLen

/-! # C89: blocks of a file are small, and C56 in bytes -/

namespace Unixfs.Props
open Unixfs Unixfs.Import Unixfs.Spec

section
variable {p : Params} {path : Option Bytes} {chunks : List Bytes} {fin : Option Err} {budget : Option Nat} {db db' : DB} {fuel w k : Nat}
  {cid : Node → Bytes}

theorem empty_len {n : Node} (h : db.newLeafNode none TFile = .ok n) : n.links = [] ∧ (encBlock cid n).length ≤ 14 := by
  unfold DB.newLeafNode at h
  simp only [Option.getD_none, List.length_nil] at h
  rw [if_neg (by simp)] at h
  split at h
  · cases h
    unfold DB.rawNode
    split <;> exact ⟨rfl, by simp [encBlock]⟩
  · rw [FSN.commit_of_typ _ (by rfl)] at h
    cases h
    refine ⟨rfl, ?_⟩
    have hb : ((FSNode.new TFile).setData none).bytes = [8, 2, 24, 0] := by decide +kernel
    simp only [encBlock, FSN.setFileData, FSN.new, List.map_nil, List.flatten_nil, List.nil_append, hb]
    decide +kernel

/-- C89 for `balanced.Layout`: every block of an imported file, encoded with CIDs of at most `w` bytes,
is either a leaf, with 14 bytes at most besides its chunk, or has at most as many links as there may be
per node, and 28 bytes at most besides the CID for each of them. -/
theorem C89_balanced {root : Built} (hf : Fresh p path chunks fin budget db) (h2 : 2 ≤ p.maxlinks)
    (h : Balanced.layout fuel db = .ok (root, db')) (hw : w < 100) (hcid : ∀ x, (cid x).length ≤ w) {x : Node} (hx : Reach root.node x) :
    x.links.length ≤ p.maxlinks ∧
    ((x.links = [] ∧ (encBlock cid x).length ≤ 1048576 + 14) ∨ (encBlock cid x).length ≤ x.links.length * (w + 28) + 24) := by
  obtain ⟨hi, hp, hm, hr, hc, _⟩ := Fresh.facts hf
  obtain ⟨new, ha, hnm, hcase⟩ := balanced_ok hf h2 h
  rcases hcase with ⟨he, hn, _⟩ | ⟨t, d, hroot, hch, hleft, _⟩
  · obtain ⟨h1, h3⟩ := empty_len (cid := cid) hn
    cases hx with
    | refl => exact ⟨by rw [h1]; simp, .inl ⟨h1, by omega⟩⟩
    | step hl _ => rw [h1] at hl; cases hl
  · rw [hroot, Fresh.cfg hf] at hx
    obtain ⟨h1, h3⟩ := hleft.fan.blocks _ (cfgOK_file _ _) hw hcid (by rw [hch]; exact ha.lim) x hx
    refine ⟨by rw [← hm]; exact h1, h3.imp ?_ id⟩
    rintro ⟨d, hd, h4, h5⟩
    have := ha.lim d (by rw [← hch]; exact hd)
    unfold blockSizeLimit at this
    exact ⟨h4, by omega⟩

/-- C89 for `trickle.Layout`: likewise, but the number of links per node grows by 4 whenever the number of
chunks grows fivefold. The length of the paths grows by 1. -/
theorem C89_trickle {root : Node} (hf : Fresh p path chunks fin budget db) (h1 : 1 ≤ p.maxlinks)
    (h : Trickle.layout fuel db = .ok (root, db')) (hk : chunks.length ≤ p.maxlinks * 5 ^ k) :
    DepthLE (k + 1) root ∧
    (w < 100 → (∀ x, (cid x).length ≤ w) → ∀ x, Reach root x →
      x.links.length ≤ p.maxlinks + 4 * k ∧
      ((x.links = [] ∧ (encBlock cid x).length ≤ 1048576 + 14) ∨ (encBlock cid x).length ≤ x.links.length * (w + 28) + 24)) := by
  obtain ⟨hi, hp, hm, hr, hc, _⟩ := Fresh.facts hf
  obtain ⟨_, _, ha, _⟩ := trickle_ok hf h1 h
  obtain ⟨ts, hroot, hch, hl⟩ := Trickle.layoutF db hi (by omega) fuel h
  rw [Fresh.cfg hf] at hroot
  rw [hp] at hch
  rw [hm] at hl
  have hfan := hl.fan (k := k) (by rw [hch]; exact hk)
  rw [hroot]
  refine ⟨hfan.depth _, fun hw hcid x hx => ?_⟩
  obtain ⟨h1, h3⟩ := hfan.blocks _ (cfgOK_raw _ _) hw hcid (by simp only [T.chunks]; rw [hch]; exact ha.lim) x hx
  refine ⟨h1, h3.imp ?_ id⟩
  rintro ⟨d, hd, h4, h5⟩
  simp only [T.chunks] at hd
  have := ha.lim d (by rw [← hch]; exact hd)
  unfold blockSizeLimit at this
  exact ⟨h4, by omega⟩

mutual
theorem size_bytes (hcid : ∀ x, (cid x).length = x.cidLen) : ∀ (n : Node), LinksTrue n → n.size = UInt64.ofNat (treeBytes cid n)
  | .proto d ls b, h => by
    have h1 := sizes_bytes hcid ls h
    unfold Node.size
    rw [← encBlock_length (cid := cid) (.proto d ls b) (fun l _ => hcid _)]
    simp only [treeBytes, Node.links, h1, UInt64.ofNat_add]
  | .raw d b, _ => by simp [Node.size, Node.blockLen, Node.links, treeBytes]
  | .other d, _ => by simp [Node.size, Node.blockLen, Node.links, treeBytes]
theorem sizes_bytes (hcid : ∀ x, (cid x).length = x.cidLen) : ∀ (ls : List Link), LinksTrueL ls → (ls.map Link.tsize).sum = UInt64.ofNat (treeBytesL cid ls)
  | [], _ => rfl
  | .mk nm sz n :: ls, h => by
    obtain ⟨_, h1, h2, h3⟩ := h
    simp only [List.map_cons, List.sum_cons, treeBytesL, Link.tsize, sizes_bytes hcid ls h3, h1, size_bytes hcid n h2, UInt64.ofNat_add]
end

mutual
theorem reach_linksTrue : ∀ (n : Node), LinksTrue n → ∀ x, Reach n x → LinksTrue x
  | .proto d ls b, h, x, hx => by
    cases hx with
    | refl => exact h
    | step hl hx => exact reach_linksTrueL ls h _ hl x hx
  | .raw d b, h, x, hx => by
    cases hx with
    | refl => trivial
    | step hl hx => cases hl
  | .other d, h, x, hx => by
    cases hx with
    | refl => trivial
    | step hl hx => cases hl
theorem reach_linksTrueL : ∀ (ls : List Link), LinksTrueL ls → ∀ l ∈ ls, ∀ x, Reach l.target x → LinksTrue x
  | [], _, l, hl, _, _ => by cases hl
  | .mk _ _ n :: ls, h, l, hl, x, hx => by
    rcases List.mem_cons.mp hl with rfl | hl
    · exact reach_linksTrue n h.2.2.1 x hx
    · exact reach_linksTrueL ls h.2.2.2 l hl x hx
end

theorem linksTrue_mem : ∀ {ls : List Link}, LinksTrueL ls → ∀ l ∈ ls, l.name = [] ∧ l.tsize = l.target.size ∧ LinksTrue l.target
  | .mk _ _ n :: ls, h, l, hl => by
    rcases List.mem_cons.mp hl with rfl | hl
    · exact ⟨h.1, h.2.1, h.2.2.1⟩
    · exact linksTrue_mem h.2.2.2 l hl

theorem tsize_bytes {root x : Node} (h : LinksTrue root) (hcid : ∀ x, (cid x).length = x.cidLen) (hx : Reach root x) {l : Link} (hl : l ∈ x.links) :
    l.tsize = UInt64.ofNat (treeBytes cid l.target) := by
  have := reach_linksTrue root h x hx
  cases x with
  | proto d ls b =>
    obtain ⟨_, h1, h2⟩ := linksTrue_mem this l hl
    rw [h1, size_bytes hcid _ h2]
  | raw d b => cases hl
  | other d => cases hl

/-- C56 in bytes, for `balanced.Layout`: the size that a link records is the number of bytes of the blocks
below it, encoded with CIDs of the right lengths. -/
theorem C56_balanced_bytes {root : Built} (hf : Fresh p path chunks fin budget db) (h2 : 2 ≤ p.maxlinks)
    (h : Balanced.layout fuel db = .ok (root, db')) (hcid : ∀ x, (cid x).length = x.cidLen) {x : Node} (hx : Reach root.node x) {l : Link} (hl : l ∈ x.links) :
    l.tsize = UInt64.ofNat (treeBytes cid l.target) := tsize_bytes (C56_balanced_tsize hf h2 h) hcid hx hl

/-- C56 in bytes, for `trickle.Layout`. -/
theorem C56_trickle_bytes {root : Node} (hf : Fresh p path chunks fin budget db) (h1 : 1 ≤ p.maxlinks)
    (h : Trickle.layout fuel db = .ok (root, db')) (hcid : ∀ x, (cid x).length = x.cidLen) {x : Node} (hx : Reach root x) {l : Link} (hl : l ∈ x.links) :
    l.tsize = UInt64.ofNat (treeBytes cid l.target) := tsize_bytes (C56_trickle_tsize hf h1 h) hcid hx hl

/-- C89 with the links per node that the library uses and CIDs of at most 36 bytes (CIDv0, or CIDv1 with
a hash of 32 bytes): no block of a balanced file has more than 1 MiB and 14 bytes, and none with links more
than 11,160 bytes. -/
theorem C89_balanced_default {root : Built} (hf : Fresh p path chunks fin budget db) (hm : p.maxlinks = defaultLinksPerBlock)
    (h : Balanced.layout fuel db = .ok (root, db')) (hcid : ∀ x, (cid x).length ≤ 36) {x : Node} (hx : Reach root.node x) :
    (encBlock cid x).length ≤ 1048590 ∧ (x.links ≠ [] → (encBlock cid x).length ≤ 11160) := by
  have hd : defaultLinksPerBlock = 174 := by decide
  obtain ⟨h1, h3⟩ := C89_balanced hf (by omega) h (show 36 < 100 by omega) hcid hx
  rcases h3 with ⟨h3, h4⟩ | h3
  · exact ⟨h4, fun h => absurd h3 h⟩
  · exact ⟨by omega, fun _ => by omega⟩

/-- C89, likewise for a trickle file of less than 2 ^ 64 chunks: no block with links has more than 18,200
bytes, and no path is longer than 26. -/
theorem C89_trickle_default {root : Node} (hf : Fresh p path chunks fin budget db) (hm : p.maxlinks = defaultLinksPerBlock) (hn : chunks.length < 2 ^ 64)
    (h : Trickle.layout fuel db = .ok (root, db')) (hcid : ∀ x, (cid x).length ≤ 36) :
    DepthLE 26 root ∧ ∀ x, Reach root x → (encBlock cid x).length ≤ 1048590 ∧ (x.links ≠ [] → (encBlock cid x).length ≤ 18200) := by
  have hd : defaultLinksPerBlock = 174 := by decide
  obtain ⟨h1, h2⟩ := C89_trickle (k := 25) (w := 36) (cid := cid) hf (by omega) h (by rw [hm, hd]; omega)
  refine ⟨h1, fun x hx => ?_⟩
  obtain ⟨h1, h3⟩ := h2 (by omega) hcid x hx
  rcases h3 with ⟨h3, h4⟩ | h3
  · exact ⟨h4, fun h => absurd h3 h⟩
  · exact ⟨by omega, fun _ => by omega⟩

end

/-- CIDs of 34 bytes. -/
def exCid : Node → Bytes := fun _ => List.replicate 34 0

/-- The hypotheses are met, and the lengths of the blocks of a file of three chunks with two links per node:
leaves with 8 bytes besides the chunks of 2, 1 and 3 bytes, and nodes with one, two and three links. -/
example : Fresh exParams none exChunks none none exDB ∧ (∀ x, (exCid x).length ≤ 36) ∧ exChunks.length ≤ exParams.maxlinks * 5 ^ 1 ∧
    (match Balanced.layout 3 exDB with
      | .ok (r, _) => (internals r.node ++ leaves r.node).map (fun x => (encBlock exCid x).length)
      | .error _ => []) = [94, 50, 94, 10, 9, 11] ∧
    (match Trickle.layout 3 exDB with
      | .ok (r, _) => (internals r ++ leaves r).map (fun x => (encBlock exCid x).length)
      | .error _ => []) = [50, 138, 10, 9, 11] :=
  ⟨⟨exDB, rfl, rfl⟩, fun _ => by simp [exCid], by decide, by decide +kernel, by decide +kernel⟩

end Unixfs.Props
