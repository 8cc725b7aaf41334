import Verif.Props.Import
import Verif.Import.Grow

/-! # C81: blocks of two imports are shared wherever their chunks agree -/

namespace Unixfs.Props
open Unixfs.Import Unixfs.Spec

section
variable {p : Params} {path path' : Option Bytes} {chunks chunks' : List Bytes} {fin fin' : Option Err} {budget budget' : Option Nat}
  {db1 db2 db1' db2' : DB} {fuel fuel' : Nat}

/-- The trees of two balanced imports. -/
theorem balanced_pair {root root' : Built} (hf : Fresh p path chunks fin budget db1) (hf' : Fresh p path' chunks' fin' budget' db2)
    (h2 : 2 ≤ p.maxlinks) (hlen : chunks.length = chunks'.length)
    (h : Balanced.layout fuel db1 = .ok (root, db1')) (h' : Balanced.layout fuel' db2 = .ok (root', db2')) :
    (chunks = [] ∧ chunks' = [] ∧ root'.node = root.node ∧ root.node.links = [] ∧ content root.node = some []) ∨
    ∃ t t' : T, root.node = t.toNode ⟨p.rawLeaves, p.cidBuilder, TFile⟩ ∧ root'.node = t'.toNode ⟨p.rawLeaves, p.cidBuilder, TFile⟩ ∧
      t.chunks = chunks ∧ t'.chunks = chunks' ∧ t.Same t' ∧ t.Lim ∧ t'.Lim := by
  obtain ⟨hi, hp, hm, hr, hc, _⟩ := Fresh.facts hf
  obtain ⟨hi', hp', hm', hr', hc', _⟩ := Fresh.facts hf'
  obtain ⟨new, ha, hnm, hcase⟩ := balanced_ok hf h2 h
  obtain ⟨new', ha', hnm', hcase'⟩ := balanced_ok hf' h2 h'
  have hnil : ∀ t : T, ∀ d, Balanced.Left p.maxlinks d t → t.chunks ≠ [] := by
    intro t d hl he
    have := (Balanced.Left.count (by omega) hl).1
    rw [he] at this; simp at this
  rw [hp] at hcase
  rw [hp'] at hcase'
  rcases hcase with ⟨he, hn, _⟩ | ⟨t, d, hroot, hch, hl, hd, _⟩
  · have he' : chunks' = [] := List.eq_nil_of_length_eq_zero (by rw [← hlen, he]; rfl)
    rcases hcase' with ⟨_, hn', _⟩ | ⟨t', d', hroot', hch', hl', hd', _⟩
    · obtain ⟨n, h1, h2, _, h3, _⟩ := emptyLeaf p db1 hr hc
      have e : db2.newLeafNode none TFile = db1.newLeafNode none TFile := by
        unfold DB.newLeafNode DB.rawNode FSN.new DB.pbBuilder
        rw [hr, hr', hc, hc']
      rw [e, hn, Except.ok.injEq] at hn'
      rw [hn, Except.ok.injEq] at h1
      rw [← h1] at h2 h3
      exact .inl ⟨he, he', hn'.symm, h3, h2⟩
    · rw [hm'] at hl'
      exact absurd (hch'.trans he') (hnil t' d' hl')
  · rcases hcase' with ⟨he', hn', _⟩ | ⟨t', d', hroot', hch', hl', hd', _⟩
    · have he : chunks = [] := List.eq_nil_of_length_eq_zero (by rw [hlen, he']; rfl)
      rw [hm] at hl
      exact absurd (hch.trans he) (hnil t d hl)
    · rw [hm] at hl hd
      rw [hm'] at hl' hd'
      have c1 := (Balanced.Left.count (by omega) hl).2
      have c2 := (Balanced.Left.count (by omega) hl').2
      rw [hch] at c1
      rw [hch', ← hlen] at c2
      rw [← hlen] at hd'
      have hdd := Balanced.height_unique h2 c1 hd c2 hd'
      subst hdd
      refine .inr ⟨t, t', by rw [hroot, Fresh.cfg hf], by rw [hroot', Fresh.cfg hf'], hch, hch', Balanced.Left.same (by omega) hl hl' (by rw [hch, hch', hlen]), ?_, ?_⟩
      · exact T.lim_of_chunks t (by rw [hch, ← hp]; exact ha.lim)
      · exact T.lim_of_chunks t' (by rw [hch', ← hp']; exact ha'.lim)

/-- The trees of two trickle imports. -/
theorem trickle_pair {root root' : Node} (hf : Fresh p path chunks fin budget db1) (hf' : Fresh p path' chunks' fin' budget' db2)
    (h1 : 1 ≤ p.maxlinks) (hlen : chunks.length = chunks'.length)
    (h : Trickle.layout fuel db1 = .ok (root, db1')) (h' : Trickle.layout fuel' db2 = .ok (root', db2')) :
    ∃ t t' : T, root = t.toNode ⟨p.rawLeaves, p.cidBuilder, TRaw⟩ ∧ root' = t'.toNode ⟨p.rawLeaves, p.cidBuilder, TRaw⟩ ∧
      t.chunks = chunks ∧ t'.chunks = chunks' ∧ t.Same t' ∧ t.Lim ∧ t'.Lim := by
  obtain ⟨hi, hp, hm, hr, hc, _⟩ := Fresh.facts hf
  obtain ⟨hi', hp', hm', hr', hc', _⟩ := Fresh.facts hf'
  obtain ⟨_, _, ha, _⟩ := trickle_ok hf h1 h
  obtain ⟨_, _, ha', _⟩ := trickle_ok hf' h1 h'
  obtain ⟨ts, hroot, hch, hl⟩ := Trickle.layoutF db1 hi (by omega) fuel h
  obtain ⟨ts', hroot', hch', hl'⟩ := Trickle.layoutF db2 hi' (by omega) fuel' h'
  rw [Fresh.cfg hf] at hroot
  rw [Fresh.cfg hf'] at hroot'
  rw [hp] at hch
  rw [hp'] at hch'
  rw [hm] at hl
  rw [hm'] at hl'
  refine ⟨_, _, hroot, hroot', hch, hch', ?_, ?_, ?_⟩
  · simp only [T.Same]
    exact Trickle.LG.same hl hl' (by rw [hch, hch', hlen])
  · exact T.lim_of_chunks _ (by simp only [T.chunks]; rw [hch]; exact ha.lim)
  · exact T.lim_of_chunks _ (by simp only [T.chunks]; rw [hch']; exact ha'.lim)

/-- C81 for `balanced.Layout`: two imports of equally many chunks have blocks at the same places, and
two blocks at the same place are equal as soon as the chunks below them are. -/
theorem C81_balanced_aligned {root root' : Built} (hf : Fresh p path chunks fin budget db1) (hf' : Fresh p path' chunks' fin' budget' db2)
    (h2 : 2 ≤ p.maxlinks) (hlen : chunks.length = chunks'.length)
    (h : Balanced.layout fuel db1 = .ok (root, db1')) (h' : Balanced.layout fuel' db2 = .ok (root', db2')) :
    Aligned root.node root'.node chunks chunks' := by
  rcases balanced_pair hf hf' h2 hlen h h' with ⟨rfl, rfl, e, hl, hc⟩ | ⟨t, t', e, e', rfl, rfl, hs, hl, hl'⟩
  · rw [e]
    intro q
    cases q with
    | nil => exact .inr ⟨_, _, 0, 0, rfl, rfl, by simp, by rw [hc]; rfl, by rw [hc]; rfl, fun _ => rfl⟩
    | cons i q => exact .inl (by simp [blockAt, hl])
  · rw [e, e']
    exact hs.aligned _ (cfgOK_file _ _) hl hl'

/-- C81 for `trickle.Layout`. -/
theorem C81_trickle_aligned {root root' : Node} (hf : Fresh p path chunks fin budget db1) (hf' : Fresh p path' chunks' fin' budget' db2)
    (h1 : 1 ≤ p.maxlinks) (hlen : chunks.length = chunks'.length)
    (h : Trickle.layout fuel db1 = .ok (root, db1')) (h' : Trickle.layout fuel' db2 = .ok (root', db2')) :
    Aligned root root' chunks chunks' := by
  obtain ⟨t, t', e, e', rfl, rfl, hs, hl, hl'⟩ := trickle_pair hf hf' h1 hlen h h'
  rw [e, e']
  exact hs.aligned _ (cfgOK_raw _ _) hl hl'

/-- C81, one changed chunk, for `balanced.Layout`: the blocks of the new DAG that the old one does not
have at the same place lie on one path from the root. -/
theorem C81_balanced_one {root root' : Built} {i : Nat} {c : Bytes} (hf : Fresh p path chunks fin budget db1)
    (hf' : Fresh p path' (chunks.set i c) fin' budget' db2) (h2 : 2 ≤ p.maxlinks)
    (h : Balanced.layout fuel db1 = .ok (root, db1')) (h' : Balanced.layout fuel' db2 = .ok (root', db2')) :
    ∃ q : List Nat, ∀ at_ x, blockAt root'.node at_ = some x → at_ <+: q ∨ blockAt root.node at_ = some x := by
  rcases balanced_pair hf hf' h2 (by simp) h h' with ⟨_, _, e, _⟩ | ⟨t, t', e, e', hc, hc', hs, _⟩
  · exact ⟨[], fun _ _ hx => .inr (by rwa [e] at hx)⟩
  · rw [e, e']
    exact hs.one_node _ i (fun j hj => by rw [hc, hc', List.getElem?_set_ne (Ne.symm hj)])

/-- C81, one changed chunk, for `trickle.Layout`. -/
theorem C81_trickle_one {root root' : Node} {i : Nat} {c : Bytes} (hf : Fresh p path chunks fin budget db1)
    (hf' : Fresh p path' (chunks.set i c) fin' budget' db2) (h1 : 1 ≤ p.maxlinks)
    (h : Trickle.layout fuel db1 = .ok (root, db1')) (h' : Trickle.layout fuel' db2 = .ok (root', db2')) :
    ∃ q : List Nat, ∀ at_ x, blockAt root' at_ = some x → at_ <+: q ∨ blockAt root at_ = some x := by
  obtain ⟨t, t', e, e', hc, hc', hs, _⟩ := trickle_pair hf hf' h1 (by simp) h h'
  rw [e, e']
  exact hs.one_node _ i (fun j hj => by rw [hc, hc', List.getElem?_set_ne (Ne.symm hj)])

/-- C81, appended chunks, for `balanced.Layout`: every block of the old DAG is a block of the new one,
at the same place below the first sub-DAG of the old height, except those on one path from the root. -/
theorem C81_balanced_append {root root' : Built} {more : List Bytes} (hf : Fresh p path chunks fin budget db1)
    (hf' : Fresh p path' (chunks ++ more) fin' budget' db2) (h2 : 2 ≤ p.maxlinks)
    (h : Balanced.layout fuel db1 = .ok (root, db1')) (h' : Balanced.layout fuel' db2 = .ok (root', db2')) :
    ∃ (q : List Nat) (e : Nat), ∀ at_ x, blockAt root.node at_ = some x →
      at_ <+: q ∨ blockAt root'.node (List.replicate e 0 ++ at_) = some x := by
  obtain ⟨hi, hp, hm, hr, hc, _⟩ := Fresh.facts hf
  obtain ⟨hi', hp', hm', hr', hc', _⟩ := Fresh.facts hf'
  obtain ⟨new, ha, hnm, hcase⟩ := balanced_ok hf h2 h
  obtain ⟨new', ha', hnm', hcase'⟩ := balanced_ok hf' h2 h'
  rw [hp] at hcase
  rw [hp'] at hcase'
  rcases hcase with ⟨he, hn, _⟩ | ⟨t, d, hroot, hch, hl, hd, _⟩
  · obtain ⟨n, h1, _, _, h3, _⟩ := emptyLeaf p db1 hr hc
    rw [hn, Except.ok.injEq] at h1
    rw [← h1] at h3
    refine ⟨[], 0, fun at_ x hx => ?_⟩
    cases at_ with
    | nil => exact .inl (List.prefix_refl _)
    | cons i at_ => simp [blockAt, h3] at hx
  · rw [hm] at hl hd
    have hpos := (Balanced.Left.count (by omega) hl).1
    rw [hch] at hpos
    rcases hcase' with ⟨he', hn', _⟩ | ⟨t', d', hroot', hch', hl', hd', _⟩
    · rw [List.append_eq_nil_iff] at he'
      rw [he'.1] at hpos
      simp at hpos
    · rw [hm'] at hl' hd'
      have c2 := (Balanced.Left.count (by omega) hl').2
      rw [hch', List.length_append] at c2
      have hdd : d ≤ d' := by
        by_contra hcon
        have h0 : d ≠ 0 := by omega
        have := hd h0
        have : p.maxlinks ^ d' ≤ p.maxlinks ^ (d - 1) := Nat.pow_le_pow_right (by omega) (by omega)
        omega
      obtain ⟨e, rfl⟩ := Nat.exists_eq_add_of_le hdd
      obtain ⟨y, hy, hyl, hyc⟩ := Balanced.Left.first (by omega) hl e hl' (by rw [hch, hch']; exact List.prefix_append _ _)
      obtain ⟨q, hq⟩ := (Balanced.Left.kept (by omega) hl hyl hyc).node ⟨p.rawLeaves, p.cidBuilder, TFile⟩
      refine ⟨q, e, fun at_ x hx => ?_⟩
      rw [hroot, Fresh.cfg hf] at hx
      rcases hq at_ x hx with h | h
      · exact .inl h
      · right
        rw [hroot', Fresh.cfg hf', blockAt_append, blockAt_toNode, hy]
        exact h

/-- C81, appended chunks, for `trickle.Layout`: every block of the old DAG is at the same place of the
new one, except those on one path from the root. -/
theorem C81_trickle_append {root root' : Node} {more : List Bytes} (hf : Fresh p path chunks fin budget db1)
    (hf' : Fresh p path' (chunks ++ more) fin' budget' db2) (h1 : 1 ≤ p.maxlinks)
    (h : Trickle.layout fuel db1 = .ok (root, db1')) (h' : Trickle.layout fuel' db2 = .ok (root', db2')) :
    ∃ q : List Nat, ∀ at_ x, blockAt root at_ = some x → at_ <+: q ∨ blockAt root' at_ = some x := by
  obtain ⟨hi, hp, hm, _⟩ := Fresh.facts hf
  obtain ⟨hi', hp', hm', _⟩ := Fresh.facts hf'
  obtain ⟨ts, hroot, hch, hl⟩ := Trickle.layoutF db1 hi (by omega) fuel h
  obtain ⟨ts', hroot', hch', hl'⟩ := Trickle.layoutF db2 hi' (by omega) fuel' h'
  rw [Fresh.cfg hf] at hroot
  rw [Fresh.cfg hf'] at hroot'
  rw [hm] at hl
  rw [hm'] at hl'
  rw [hroot, hroot']
  exact (Trickle.LG.kept (by omega) hl hl' (by rw [hch, hch', hp, hp']; exact List.prefix_append _ _)).node _
end

section Examples

/-- Five chunks, two links per node. -/
def dupParams : Params := { maxlinks := 2 }
def dupChunks : List Bytes := [[1], [2], [3], [4], [5]]
def dupDB (cs : List Bytes) : DB := { maxlinks := 2, src := cs }
def dupRoot (cs : List Bytes) : Option Node := match Balanced.layout 9 (dupDB cs) with | .ok (r, _) => some r.node | _ => none
def dupTrickle (cs : List Bytes) : Option Node := match Trickle.layout 9 (dupDB cs) with | .ok (r, _) => some r | _ => none
/-- Content of the block at a place. -/
def dupAt (n : Option Node) (q : List Nat) : Option Bytes := (n.bind (blockAt · q)).bind content

example : Fresh dupParams none dupChunks none none (dupDB dupChunks) := ⟨_, rfl, rfl⟩
example : Fresh dupParams none (dupChunks.set 2 [9]) none none (dupDB (dupChunks.set 2 [9])) := ⟨_, rfl, rfl⟩
example : Fresh dupParams none (dupChunks ++ [[6], [7], [8], [9]]) none none (dupDB (dupChunks ++ [[6], [7], [8], [9]])) := ⟨_, rfl, rfl⟩
-- a change of the third chunk: the blocks off the path 0, 1, 0 are the same
example : [[], [0], [0, 0], [0, 1], [1]].map (dupAt (dupRoot dupChunks)) =
    [some [1, 2, 3, 4, 5], some [1, 2, 3, 4], some [1, 2], some [3, 4], some [5]] := by decide +kernel
example : [[], [0], [0, 0], [0, 1], [1]].map (dupAt (dupRoot (dupChunks.set 2 [9]))) =
    [some [1, 2, 9, 4, 5], some [1, 2, 9, 4], some [1, 2], some [9, 4], some [5]] := by decide +kernel
example : [[], [0], [1], [2], [2, 1]].map (dupAt (dupTrickle dupChunks)) =
    [some [1, 2, 3, 4, 5], some [1], some [2], some [3, 4], some [4]] := by decide +kernel
example : [[], [0], [1], [2], [2, 1]].map (dupAt (dupTrickle (dupChunks.set 2 [9]))) =
    [some [1, 2, 9, 4, 5], some [1], some [2], some [9, 4], some [4]] := by decide +kernel
-- four more chunks: the balanced DAG becomes one level higher
example : [[0], [0, 0], [0, 0, 1], [0, 1]].map (dupAt (dupRoot (dupChunks ++ [[6], [7], [8], [9]]))) =
    [some [1, 2, 3, 4, 5, 6, 7, 8], some [1, 2, 3, 4], some [3, 4], some [5, 6, 7, 8]] := by decide +kernel

end Examples

end Unixfs.Props
