import Verif.Props.BlockSize
import Verif.Import.Overhead

/-! # C91: what an imported file costs besides its bytes -/

namespace Unixfs.Props
open Unixfs Unixfs.Import Unixfs.Spec

section
variable {p : Params} {path : Option Bytes} {chunks : List Bytes} {fin : Option Err} {budget : Option Nat} {db db' : DB} {fuel w k : Nat}
  {cid : Node → Bytes}

/-- The tree behind a balanced file of at least one chunk. -/
theorem balanced_tree {root : Built} (hf : Fresh p path chunks fin budget db) (h2 : 2 ≤ p.maxlinks)
    (h : Balanced.layout fuel db = .ok (root, db')) (hk : chunks.length ≤ p.maxlinks ^ k) :
    (chunks = [] ∧ root.node.links = [] ∧ (encBlock cid root.node).length ≤ 14) ∨
    ∃ t : T, root.node = t.toNode ⟨p.rawLeaves, p.cidBuilder, TFile⟩ ∧ t.chunks = chunks ∧ (∀ d ∈ chunks, d.length ≤ blockSizeLimit) ∧
      t.inner * (p.maxlinks - 1) + 1 ≤ chunks.length + k * (p.maxlinks - 1) := by
  obtain ⟨hi, hp, hm, hr, hc, _⟩ := Fresh.facts hf
  obtain ⟨new, ha, hnm, hcase⟩ := balanced_ok hf h2 h
  rcases hcase with ⟨he, hn, _⟩ | ⟨t, d, hroot, hch, hleft, hcount, _⟩
  · obtain ⟨h1, h3⟩ := empty_len (cid := cid) hn
    exact .inl ⟨by rw [← hp]; exact he, h1, h3⟩
  · rw [Fresh.cfg hf] at hroot
    rw [hp] at hch
    rw [hm] at hleft
    refine .inr ⟨t, hroot, hch, fun d hd => ha.lim d (by rw [hp]; exact hd), ?_⟩
    have h3 := hleft.inner (by omega)
    have hd : d ≤ k := by
      by_contra hlt
      have := hcount (by omega)
      rw [hm, hp] at this
      have := Nat.pow_le_pow_right (show 0 < p.maxlinks by omega) (show k ≤ d - 1 by omega)
      omega
    have := Nat.mul_le_mul_right (p.maxlinks - 1) hd
    rw [hch] at h3
    omega

theorem internals_nil {n : Node} (h : n.links = []) : internals n = [] := by
  cases n with
  | proto d ls b => simp only [Node.links] at h; subst h; rfl
  | raw d b => rfl
  | other d => rfl

theorem treeBytes_nil {n : Node} (h : n.links = []) : treeBytes cid n = (encBlock cid n).length := by
  cases n with
  | proto d ls b => simp only [Node.links] at h; subst h; simp [treeBytes, treeBytesL]
  | raw d b => rfl
  | other d => rfl

/-- C91 for `balanced.Layout`: a file of `n` chunks, at most `m ^ k` of them, has at most
`(n - 1) / (m - 1) + k` blocks with links, where `m` is the number of links per node. -/
theorem C91_balanced_nodes {root : Built} (hf : Fresh p path chunks fin budget db) (h2 : 2 ≤ p.maxlinks)
    (h : Balanced.layout fuel db = .ok (root, db')) (hk : chunks.length ≤ p.maxlinks ^ k) :
    (internals root.node).length ≤ (chunks.length - 1) / (p.maxlinks - 1) + k := by
  rcases balanced_tree (cid := fun _ => []) hf h2 h hk with ⟨_, h1, _⟩ | ⟨t, hroot, _, _, h3⟩
  · rw [internals_nil h1]; simp
  · rw [hroot]
    have h4 := T.internals_le ⟨p.rawLeaves, p.cidBuilder, TFile⟩ t
    have h5 : t.inner ≤ (chunks.length - 1) / (p.maxlinks - 1) + k := by
      by_cases hlt : t.inner ≤ k
      · exact le_trans hlt (Nat.le_add_left _ _)
      · obtain ⟨x, hx⟩ : ∃ x, t.inner = x + k := ⟨t.inner - k, by omega⟩
        rw [hx, Nat.add_mul] at h3
        have : x ≤ (chunks.length - 1) / (p.maxlinks - 1) := (Nat.le_div_iff_mul_le (by omega)).mpr (by omega)
        omega
    omega

/-- Three chunks, two links per node, two levels: three blocks with links, and four allowed. -/
example : ∃ r d, Balanced.layout 3 exDB = .ok (r, d) ∧ (internals r.node).length ≤ 4 := by
  obtain ⟨r, d, h, _⟩ := exBalanced
  exact ⟨r, d, h, C91_balanced_nodes (k := 2) exFresh (by decide) h (by decide)⟩

/-- C91 for `trickle.Layout`: a file of `n` chunks has at most `(n - 1) / m + 1` blocks with links. -/
theorem C91_trickle_nodes {root : Node} (hf : Fresh p path chunks fin budget db) (h1 : 1 ≤ p.maxlinks)
    (h : Trickle.layout fuel db = .ok (root, db')) :
    (internals root).length ≤ (chunks.length - 1) / p.maxlinks + 1 := by
  obtain ⟨hi, hp, hm, hr, hc, _⟩ := Fresh.facts hf
  obtain ⟨ts, hroot, hch, hl⟩ := Trickle.layoutF db hi (by omega) fuel h
  rw [hp] at hch
  rw [hm] at hl
  by_cases hne : ts = []
  · rw [hroot]; subst hne; simp [T.toNode, T.toLinks, internals]
  · have h3 := hl.inner h1 hne
    have h4 := T.internals_le (db.cfg TRaw) (T.node ts)
    rw [hroot]
    rw [hch] at h3
    obtain ⟨x, hx⟩ : ∃ x, (T.node ts).inner = x + 1 := ⟨T.innerL ts, by simp [T.inner]; omega⟩
    rw [hx, Nat.add_mul] at h3
    have : x ≤ (chunks.length - 1) / p.maxlinks := (Nat.le_div_iff_mul_le (by omega)).mpr (by omega)
    omega

/-- Here the bound is met exactly. -/
example : ∃ r d, Trickle.layout 4 exDB = .ok (r, d) ∧ (internals r).length ≤ 2 := by
  obtain ⟨r, d, h, _⟩ := exTrickle
  exact ⟨r, d, h, C91_trickle_nodes exFresh (by decide) h⟩

example : (match Trickle.layout 4 exDB with | .ok (r, _) => (internals r).length | .error _ => 0) = 2 := by decide +kernel

/-- C91 in bytes, for `balanced.Layout`: the blocks of a file, encoded with CIDs of at most `w` bytes, have
at most `w + 42` bytes for each chunk and `w + 52` bytes for each block with links besides the bytes of
the file. -/
theorem C91_balanced_bytes {root : Built} (hf : Fresh p path chunks fin budget db) (h2 : 2 ≤ p.maxlinks)
    (h : Balanced.layout fuel db = .ok (root, db')) (hk : chunks.length ≤ p.maxlinks ^ k) (hw : w < 100) (hcid : ∀ x, (cid x).length ≤ w) :
    treeBytes cid root.node ≤ chunks.flatten.length + (w + 42) * chunks.length + (w + 52) * ((chunks.length - 1) / (p.maxlinks - 1) + k) + 14 := by
  rcases balanced_tree (cid := cid) hf h2 h hk with ⟨hc, h1, h3⟩ | ⟨t, hroot, hch, hlim, h3⟩
  · rw [treeBytes_nil h1]; omega
  · rw [hroot]
    have h4 := T.bytes_le ⟨p.rawLeaves, p.cidBuilder, TFile⟩ (cfgOK_file _ _) hw hcid t (by rw [hch]; exact hlim)
    rw [hch] at h4
    have h5 : t.inner ≤ (chunks.length - 1) / (p.maxlinks - 1) + k := by
      by_cases hlt : t.inner ≤ k
      · exact le_trans hlt (Nat.le_add_left _ _)
      · obtain ⟨x, hx⟩ : ∃ x, t.inner = x + k := ⟨t.inner - k, by omega⟩
        rw [hx, Nat.add_mul] at h3
        have : x ≤ (chunks.length - 1) / (p.maxlinks - 1) := (Nat.le_div_iff_mul_le (by omega)).mpr (by omega)
        omega
    have h6 := Nat.mul_le_mul_left (w + 52) h5
    have h7 : (chunks.length + t.inner) * (w + 28) + 14 * chunks.length + 24 * t.inner = (w + 42) * chunks.length + (w + 52) * t.inner := by ring
    omega

example : ∃ r d, Balanced.layout 3 exDB = .ok (r, d) ∧ treeBytes exCid r.node ≤ 6 + 76 * 3 + 86 * 4 + 14 := by
  obtain ⟨r, d, h, _⟩ := exBalanced
  exact ⟨r, d, h, le_trans (C91_balanced_bytes (k := 2) (w := 34) exFresh (by decide) h (by decide) (by omega) (fun _ => by simp [exCid])) (by decide)⟩

/-- C91 in bytes, for `trickle.Layout`. -/
theorem C91_trickle_bytes {root : Node} (hf : Fresh p path chunks fin budget db) (h1 : 1 ≤ p.maxlinks)
    (h : Trickle.layout fuel db = .ok (root, db')) (hw : w < 100) (hcid : ∀ x, (cid x).length ≤ w) :
    treeBytes cid root ≤ chunks.flatten.length + (w + 42) * chunks.length + (w + 52) * ((chunks.length - 1) / p.maxlinks + 1) := by
  obtain ⟨hi, hp, hm, hr, hc, _⟩ := Fresh.facts hf
  obtain ⟨_, _, ha, _⟩ := trickle_ok hf h1 h
  obtain ⟨ts, hroot, hch, hl⟩ := Trickle.layoutF db hi (by omega) fuel h
  rw [Fresh.cfg hf] at hroot
  rw [hp] at hch
  rw [hm] at hl
  have h4 := T.bytes_le ⟨p.rawLeaves, p.cidBuilder, TRaw⟩ (cfgOK_raw _ _) hw hcid (T.node ts) (by simp only [T.chunks]; rw [hch]; exact ha.lim)
  simp only [T.chunks] at h4
  rw [hch] at h4
  rw [hroot]
  have h5 : (T.node ts).inner ≤ (chunks.length - 1) / p.maxlinks + 1 := by
    by_cases hne : ts = []
    · subst hne; simp [T.inner, T.innerL]
    · have h3 := hl.inner h1 hne
      rw [hch] at h3
      obtain ⟨x, hx⟩ : ∃ x, (T.node ts).inner = x + 1 := ⟨T.innerL ts, by simp [T.inner]; omega⟩
      rw [hx, Nat.add_mul] at h3
      have : x ≤ (chunks.length - 1) / p.maxlinks := (Nat.le_div_iff_mul_le (by omega)).mpr (by omega)
      omega
  have h6 := Nat.mul_le_mul_left (w + 52) h5
  have h7 : (chunks.length + (T.node ts).inner) * (w + 28) + 14 * chunks.length + 24 * (T.node ts).inner = (w + 42) * chunks.length + (w + 52) * (T.node ts).inner := by ring
  omega

example : ∃ r d, Trickle.layout 4 exDB = .ok (r, d) ∧ treeBytes exCid r ≤ 6 + 76 * 3 + 86 * 2 := by
  obtain ⟨r, d, h, _⟩ := exTrickle
  exact ⟨r, d, h, le_trans (C91_trickle_bytes (w := 34) exFresh (by decide) h (by omega) (fun _ => by simp [exCid])) (by decide)⟩

/-- The bytes of the two files: 268 and 218, of which 6 are the file's. -/
example : (match Balanced.layout 3 exDB with | .ok (r, _) => treeBytes exCid r.node | .error _ => 0) = 268 ∧
    (match Trickle.layout 4 exDB with | .ok (r, _) => treeBytes exCid r | .error _ => 0) = 218 := by
  constructor <;> decide +kernel

/-- C91 with the links per node that the library uses and CIDs of at most 36 bytes: a file of `n ≤ 174 ^ k`
chunks costs at most 79 bytes for each chunk and 88 for each level besides its bytes. -/
theorem C91_balanced_default {root : Built} (hf : Fresh p path chunks fin budget db) (hm : p.maxlinks = defaultLinksPerBlock)
    (h : Balanced.layout fuel db = .ok (root, db')) (hk : chunks.length ≤ 174 ^ k) (hcid : ∀ x, (cid x).length ≤ 36) :
    treeBytes cid root.node ≤ chunks.flatten.length + 79 * chunks.length + 88 * k + 14 := by
  have hd : defaultLinksPerBlock = 174 := by decide
  have := C91_balanced_bytes (k := k) hf (by omega) h (by rw [hm, hd]; exact hk) (show 36 < 100 by omega) hcid
  rw [hm, hd] at this
  omega

example : ∃ r d, Balanced.layout 3 { exDB with maxlinks := 174 } = .ok (r, d) ∧ treeBytes exCid r.node ≤ 6 + 79 * 3 + 88 + 14 := by
  obtain ⟨r, d, h, _⟩ : ∃ r d, Balanced.layout 3 { exDB with maxlinks := 174 } = .ok (r, d) ∧ r.node.links.length = 3 :=
    ok_of (fun r : Built => r.node.links.length) (by decide +kernel)
  exact ⟨r, d, h, le_trans (C91_balanced_default (k := 1) (p := { maxlinks := 174 }) (path := none) (chunks := exChunks) (fin := none) (budget := none)
    ⟨_, rfl, rfl⟩ rfl h (by decide) (fun _ => by simp [exCid])) (by decide)⟩

/-- C91, likewise for a trickle file. -/
theorem C91_trickle_default {root : Node} (hf : Fresh p path chunks fin budget db) (hm : p.maxlinks = defaultLinksPerBlock)
    (h : Trickle.layout fuel db = .ok (root, db')) (hcid : ∀ x, (cid x).length ≤ 36) :
    treeBytes cid root ≤ chunks.flatten.length + 79 * chunks.length + 88 := by
  have hd : defaultLinksPerBlock = 174 := by decide
  have := C91_trickle_bytes hf (by omega) h (show 36 < 100 by omega) hcid
  rw [hm, hd] at this
  omega

example : ∃ r d, Trickle.layout 4 { exDB with maxlinks := 174 } = .ok (r, d) ∧ treeBytes exCid r ≤ 6 + 79 * 3 + 88 := by
  obtain ⟨r, d, h, _⟩ : ∃ r d, Trickle.layout 4 { exDB with maxlinks := 174 } = .ok (r, d) ∧ r.links.length = 3 :=
    ok_of (fun r : Node => r.links.length) (by decide +kernel)
  exact ⟨r, d, h, le_trans (C91_trickle_default (p := { maxlinks := 174 }) (path := none) (chunks := exChunks) (fin := none) (budget := none)
    ⟨_, rfl, rfl⟩ rfl h (fun _ => by simp [exCid])) (by decide)⟩

end

end Unixfs.Props
