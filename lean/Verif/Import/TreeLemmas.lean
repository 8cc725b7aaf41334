import Verif.Import.Source
import Verif.Spec.File
import Verif.Props.Format

/-! # What `T.toNode` represents

The definitions in this file belong to proofs; they model no code.
-/

namespace Unixfs.Import
open Unixfs.Spec

theorem sum_ofNat (l : List T) : (l.map T.size).sum = UInt64.ofNat (T.chunksL l).flatten.length := by
  induction l with
  | nil => rfl
  | cons t l ih => simp [T.chunksL, ih, T.size, UInt64.ofNat_add]

/-- The message of an internal node. -/
theorem bytes_addSizes (ss : List UInt64) :
    Pb.Data.unmarshal (addSizes (FSNode.new TFile) ss).bytes =
      .ok { typ := some TFile, filesize := some ss.sum, blocksizes := ss } := by
  have hf : (addSizes (FSNode.new TFile) ss).format = { typ := some TFile, filesize := some ss.sum, blocksizes := ss } := by
    rw [addSizes_format]
    by_cases h : ss = []
    · subst h; rfl
    · simp [h, FSNode.new, FSNode.updateFilesize, Pb.Data.getFilesize]
  obtain ⟨b, hb, hu⟩ := Pb.Data.unmarshal_marshal (addSizes (FSNode.new TFile) ss).format
    (by rw [hf]; exact ⟨rfl, by simp, .nil⟩)
  have : (addSizes (FSNode.new TFile) ss).bytes = b := by
    unfold FSNode.bytes FSNode.getBytes; rw [hb]
  rw [this, hu, hf]

theorem fileSize_addSizes (ss : List UInt64) : (addSizes (FSNode.new TFile) ss).fileSize = ss.sum := by
  have hf : (addSizes (FSNode.new TFile) ss).format = { typ := some TFile, filesize := some ss.sum, blocksizes := ss } := by
    rw [addSizes_format]
    by_cases h : ss = []
    · subst h; rfl
    · simp [h, FSNode.new, FSNode.updateFilesize, Pb.Data.getFilesize]
  unfold FSNode.fileSize pbSize
  rw [hf]; rfl

/-- The message of a protobuf leaf. -/
theorem bytes_leaf (t : UInt32) (d : Option Bytes) (h : (d.getD []).length < 2 ^ 64) :
    Pb.Data.unmarshal ((FSNode.new t).setData d).bytes =
      .ok { typ := some t, data := d, filesize := some (UInt64.ofNat (d.getD []).length) } := by
  have hf : ((FSNode.new t).setData d).format =
      { typ := some t, data := d, filesize := some (UInt64.ofNat (d.getD []).length) } := by
    simp [FSNode.setData, FSNode.new, FSNode.updateFilesize, Pb.Data.getFilesize, FSNode.data, Pb.Data.getData]
  obtain ⟨b, hb, hu⟩ := Pb.Data.unmarshal_marshal ((FSNode.new t).setData d).format
    (by rw [hf]; exact ⟨rfl, by intro x hx; simp only at hx; subst hx; exact h, .nil⟩)
  have : ((FSNode.new t).setData d).bytes = b := by
    unfold FSNode.bytes FSNode.getBytes; rw [hb]
  rw [this, hu, hf]

/-- File leaf types. -/
def Cfg.OK (c : Cfg) : Prop := c.leafType = TFile ∨ c.leafType = TRaw

mutual
/-- All chunks fit in a block. -/
def T.Lim : T → Prop
  | .leaf d => d.length ≤ blockSizeLimit
  | .node ts => T.LimL ts
def T.LimL : List T → Prop
  | [] => True
  | t :: ts => t.Lim ∧ T.LimL ts
end

mutual
theorem T.lim_of_chunks : ∀ (t : T), (∀ c ∈ t.chunks, c.length ≤ blockSizeLimit) → t.Lim
  | .leaf d, h => h d (by simp [T.chunks])
  | .node ts, h => T.limL_of_chunks ts h
theorem T.limL_of_chunks : ∀ (ts : List T), (∀ c ∈ T.chunksL ts, c.length ≤ blockSizeLimit) → T.LimL ts
  | [], _ => trivial
  | t :: ts, h => ⟨T.lim_of_chunks t (fun c hc => h c (by simp [T.chunksL, hc])),
      T.limL_of_chunks ts (fun c hc => h c (by simp [T.chunksL, hc]))⟩
end

theorem lim_lt {d : Bytes} (h : d.length ≤ blockSizeLimit) : d.length < 2 ^ 64 := by
  unfold blockSizeLimit at h; omega

theorem content_leafNode (c : Cfg) (hc : c.OK) (d : Bytes) (h : d.length ≤ blockSizeLimit) :
    content (c.leafNode d) = some d := by
  unfold Cfg.leafNode
  split
  · cases c.cidBuilder <;> simp [content]
  · simp only [content]
    rw [bytes_leaf _ _ (by simpa using lim_lt h)]
    simp only [Option.getD_some]
    rw [if_pos (by rcases hc with h | h <;> simp [IsFileMsg, h])]

mutual
theorem content_toNode (c : Cfg) (hc : c.OK) : ∀ (t : T), t.Lim → content (t.toNode c) = some t.chunks.flatten
  | .leaf d, h => by simp only [T.toNode, T.chunks]; rw [content_leafNode c hc d h]; simp
  | .node [], _ => by
    simp only [T.toNode, T.toLinks, content]
    rw [bytes_addSizes]
    simp [IsFileMsg, T.chunks, T.chunksL]
  | .node (t :: ts), h => by
    have := content_toLinks c hc (t :: ts) h
    simp only [T.toNode, T.toLinks] at this ⊢
    simp only [content]
    exact this
theorem content_toLinks (c : Cfg) (hc : c.OK) : ∀ (ts : List T), T.LimL ts →
    contentL (T.toLinks c ts) = some (T.chunksL ts).flatten
  | [], _ => rfl
  | t :: ts, h => by
    simp only [T.toLinks, makeLink, contentL]
    rw [content_toNode c hc t h.1, content_toLinks c hc ts h.2]
    simp [T.chunksL]
end

theorem contentLen_toNode (c : Cfg) (hc : c.OK) (t : T) (h : t.Lim) :
    UInt64.ofNat (contentLen (t.toNode c)) = t.size := by
  unfold contentLen; rw [content_toNode c hc t h]; rfl

theorem sizes_toLinks (c : Cfg) (hc : c.OK) : ∀ (ts : List T), T.LimL ts →
    (T.toLinks c ts).map (fun l => UInt64.ofNat (contentLen l.target)) = ts.map T.size
  | [], _ => rfl
  | t :: ts, h => by
    have := contentLen_toNode c hc t h.1
    simp only [T.toLinks, List.map_cons, sizes_toLinks c hc ts h.2]
    rw [← this]; rfl

mutual
theorem sizesTrue_toNode (c : Cfg) (hc : c.OK) : ∀ (t : T), t.Lim → SizesTrue (t.toNode c)
  | .leaf d, h => by
    have hcont := content_leafNode c hc d h
    simp only [T.toNode]
    unfold Cfg.leafNode at hcont ⊢
    split
    · cases c.cidBuilder <;> simp [SizesTrue]
    · rename_i hr
      simp only [hr] at hcont
      refine ⟨_, bytes_leaf _ _ (by simpa using lim_lt h), ?_, by simp, by simp, ?_, trivial⟩
      · rcases hc with h | h <;> simp [IsFileMsg, h]
      · unfold contentLen
        simp only [Bool.false_eq_true, if_false] at hcont
        rw [hcont]; simp
  | .node ts, h => by
    have hcont := content_toNode c hc (.node ts) h
    simp only [T.toNode] at hcont ⊢
    refine ⟨_, bytes_addSizes _, .inl rfl, by simp, ?_, ?_, sizesTrue_toLinks c hc ts h⟩
    · simp only; rw [sizes_toLinks c hc ts h]
    · unfold contentLen; rw [hcont]; simp [sum_ofNat, T.chunks]
theorem sizesTrue_toLinks (c : Cfg) (hc : c.OK) : ∀ (ts : List T), T.LimL ts → SizesTrueL (T.toLinks c ts)
  | [], _ => trivial
  | t :: ts, h => ⟨sizesTrue_toNode c hc t h.1, sizesTrue_toLinks c hc ts h.2⟩
end

/-! ### Stored nodes -/

theorem reach_leafNode (c : Cfg) (d : Bytes) {x : Node} (h : Reach (c.leafNode d) x) : x = c.leafNode d := by
  cases h with
  | refl => rfl
  | step hl _ =>
    unfold Cfg.leafNode at hl
    split at hl
    · cases hb : c.cidBuilder <;> simp [hb, Node.links] at hl
    · simp [Node.links] at hl

mutual
theorem reach_toNode (c : Cfg) : ∀ (t : T) (x : Node), Reach (t.toNode c) x → x ∈ t.nodes c
  | .leaf d, x, h => by simp only [T.toNode] at h; simp [T.nodes, reach_leafNode c d h]
  | .node ts, x, h => by
    cases h with
    | refl => simp [T.nodes]
    | step hl h' =>
      simp only [T.toNode, Node.links] at hl
      simp only [T.nodes, List.mem_append]
      exact .inl (reach_toLinks c ts _ x hl h')
theorem reach_toLinks (c : Cfg) : ∀ (ts : List T) (l : Link) (x : Node), l ∈ T.toLinks c ts → Reach l.target x → x ∈ T.nodesL c ts
  | [], l, x, hl, _ => by simp [T.toLinks] at hl
  | t :: ts, l, x, hl, h => by
    simp only [T.toLinks, List.mem_cons] at hl
    simp only [T.nodesL, List.mem_append]
    rcases hl with rfl | hl
    · exact .inl (reach_toNode c t x h)
    · exact .inr (reach_toLinks c ts l x hl h)
end

/-! ### Leaves and kinds -/

mutual
/-- No empty internal node. -/
def T.Pos : T → Prop
  | .leaf _ => True
  | .node ts => ts ≠ [] ∧ T.PosL ts
def T.PosL : List T → Prop
  | [] => True
  | t :: ts => t.Pos ∧ T.PosL ts
end

theorem T.posL_iff (ts : List T) : T.PosL ts ↔ ∀ t ∈ ts, t.Pos := by
  induction ts with
  | nil => simp [T.PosL]
  | cons t ts ih => simp [T.PosL, ih]

theorem leaves_leafNode (c : Cfg) (d : Bytes) : leaves (c.leafNode d) = [c.leafNode d] := by
  unfold Cfg.leafNode
  split
  · cases c.cidBuilder <;> simp [leaves]
  · simp [leaves]

mutual
theorem leaves_toNode (c : Cfg) : ∀ (t : T), t.Pos → leaves (t.toNode c) = t.chunks.map c.leafNode
  | .leaf d, _ => by simp only [T.toNode, T.chunks]; rw [leaves_leafNode]; simp
  | .node [], h => absurd rfl h.1
  | .node (t :: ts), h => by
    have := leaves_toLinks c (t :: ts) h.2
    simp only [T.toNode, T.toLinks] at this ⊢
    simp only [leaves]
    exact this
theorem leaves_toLinks (c : Cfg) : ∀ (ts : List T), T.PosL ts → leavesL (T.toLinks c ts) = (T.chunksL ts).map c.leafNode
  | [], _ => rfl
  | t :: ts, h => by
    simp only [T.toLinks, makeLink, leavesL]
    rw [leaves_toNode c t h.1, leaves_toLinks c ts h.2]
    simp [T.chunksL]
end

/-- An internal node of an import: a file message without data, built with the configured builder. -/
def InternalKind (pb : Builder) (n : Node) : Prop :=
  ∃ d ls m, n = .proto d ls pb ∧ Pb.Data.unmarshal d = .ok m ∧ m.typ = some TFile ∧ m.data = none

mutual
theorem internals_toNode (c : Cfg) : ∀ (t : T), ∀ n ∈ internals (t.toNode c), InternalKind c.pbBuilder n
  | .leaf d, n, h => by
    simp only [T.toNode] at h
    unfold Cfg.leafNode at h
    split at h
    · cases hb : c.cidBuilder <;> simp [hb, internals] at h
    · simp [internals] at h
  | .node [], n, h => by simp [T.toNode, T.toLinks, internals] at h
  | .node (t :: ts), n, h => by
    have := internals_toLinks c (t :: ts)
    simp only [T.toNode, T.toLinks] at this h
    simp only [internals, List.mem_append, List.mem_singleton] at h
    rcases h with h | h
    · exact this n h
    · exact ⟨_, _, _, h, bytes_addSizes _, rfl, rfl⟩
theorem internals_toLinks (c : Cfg) : ∀ (ts : List T), ∀ n ∈ internalsL (T.toLinks c ts), InternalKind c.pbBuilder n
  | [], n, h => by simp [T.toLinks, internalsL] at h
  | t :: ts, n, h => by
    simp only [T.toLinks, makeLink, internalsL, List.mem_append] at h
    rcases h with h | h
    · exact internals_toNode c t n h
    · exact internals_toLinks c ts n h
end

end Unixfs.Import
