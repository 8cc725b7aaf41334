import Verif.Import.Fill
import Verif.Spec.Encode

/-!
# Lengths of blocks

The definitions in this file belong to proofs; they model no code.
-/

namespace Unixfs

namespace Pb

theorem encVarintF_length_le (f n : Nat) : (encVarintF f n).length ≤ f + 1 := by
  induction f generalizing n with
  | zero => simp [encVarintF]
  | succ f ih =>
    unfold encVarintF
    split
    · simp
    · simp only [List.length_cons]; have := ih (n / 128); omega

theorem encVarint_length_le (n : Nat) : (encVarint n).length ≤ 10 := encVarintF_length_le 9 n

theorem encVarintF_length_lt (f : Nat) : ∀ (k n : Nat), n < 128 ^ (k + 1) → (encVarintF f n).length ≤ k + 1 := by
  induction f with
  | zero => intro k n _; simp [encVarintF]
  | succ f ih =>
    intro k n h
    unfold encVarintF
    split
    · simp
    · cases k with
      | zero => simp at h; omega
      | succ k =>
        simp only [List.length_cons]
        have := ih k (n / 128) (by rw [Nat.div_lt_iff_lt_mul (by omega)]; rw [Nat.pow_succ] at h; exact h)
        omega

theorem encVarint_length_lt {k n : Nat} (h : n < 128 ^ (k + 1)) : (encVarint n).length ≤ k + 1 := encVarintF_length_lt 9 k n h

theorem encVarint_one {n : Nat} (h : n < 128) : (encVarint n).length = 1 := by
  unfold encVarint encVarintF; rw [if_pos h]; rfl

theorem encVarintField_length {t v : Nat} (ht : t < 16) : (encVarintField t v).length = 1 + (encVarint v).length := by
  unfold encVarintField; rw [List.length_append, encVarint_one (by omega)]

theorem encBytesField_length {t : Nat} (b : Bytes) (ht : t < 15) : (encBytesField t b).length = 1 + (encVarint b.length).length + b.length := by
  unfold encBytesField; rw [List.length_append, List.length_append, encVarint_one (by omega)]; omega

theorem encBlocksizes_length (ss : List UInt64) : (encBlocksizes ss).length ≤ 11 * ss.length := by
  induction ss with
  | nil => simp [encBlocksizes]
  | cons s ss ih =>
    have := encVarint_length_le s.toNat
    simp only [encBlocksizes, List.length_append, encVarintField_length (show 4 < 16 by omega), List.length_cons]
    omega

end Pb

namespace Spec

theorem encBlock_length {cid : Node → Bytes} (n : Node) (h : ∀ l ∈ n.links, (cid l.target).length = l.target.cidLen) :
    (encBlock cid n).length = n.blockLen := by
  cases n with
  | raw d b => rfl
  | other d => rfl
  | proto d ls b =>
    simp only [Node.links] at h
    simp only [encBlock, Node.blockLen, List.length_append]
    congr 1
    · induction ls with
      | nil => rfl
      | cons l ls ih =>
        simp only [List.map_cons, List.flatten_cons, List.length_append, List.sum_cons]
        rw [ih (fun x hx => h x (by simp [hx])), Pb.encBytesField_length _ (by omega)]
        congr 1
        unfold Node.linkLen Node.lenField encLink
        simp only [List.length_append, Pb.encBytesField_length _ (show 1 < 15 by omega), Pb.encBytesField_length _ (show 2 < 15 by omega),
          Pb.encVarintField_length (show 3 < 16 by omega), h l (by simp)]
    · unfold Node.lenField
      by_cases hd : d = []
      · subst hd; rfl
      · simp [hd, Pb.encBytesField_length]

/-- A link without a name. -/
theorem encLink_le {cid : Node → Bytes} {c : Nat} (hc : c < 100) (h : ∀ x, (cid x).length ≤ c) (n : Node) :
    (Pb.encBytesField 2 (encLink cid (makeLink [] n))).length ≤ c + 17 := by
  have h1 := h n
  have h2 := Pb.encVarint_length_le n.size.toNat
  have h3 : (encLink cid (makeLink [] n)).length ≤ c + 15 := by
    unfold encLink
    simp only [makeLink, Link.target, Link.name, Link.tsize, List.length_append, Pb.encBytesField_length _ (show 1 < 15 by omega),
      Pb.encBytesField_length _ (show 2 < 15 by omega), Pb.encVarintField_length (show 3 < 16 by omega), List.length_nil]
    rw [Pb.encVarint_one (show (cid n).length < 128 by omega), Pb.encVarint_one (show 0 < 128 by omega)]
    omega
  rw [Pb.encBytesField_length _ (by omega), Pb.encVarint_one (show (encLink cid (makeLink [] n)).length < 128 by omega)]
  omega

end Spec

namespace Import
open Spec

/-- At most `k` children per node and height at most `h`. -/
inductive T.Fan (k : Nat) : Nat → T → Prop
  | leaf (h : Nat) (c : Bytes) : T.Fan k h (.leaf c)
  | node (h : Nat) (ts : List T) (hl : ts.length ≤ k) (hs : ∀ t ∈ ts, T.Fan k h t) : T.Fan k (h + 1) (.node ts)

theorem T.Fan.mono {k h : Nat} {t : T} (hf : t.Fan k h) : ∀ {k' h' : Nat}, k ≤ k' → h ≤ h' → t.Fan k' h' := by
  induction hf with
  | leaf h c => intro _ _ _ _; exact .leaf _ c
  | node h ts hl hs ih =>
    intro k' h' hk hh
    obtain ⟨h', rfl⟩ : ∃ x, h' = x + 1 := ⟨h' - 1, by omega⟩
    exact .node _ _ (by omega) (fun t ht => ih t ht hk (by omega))

theorem T.Fan.depth {k h : Nat} {t : T} (hf : t.Fan k h) (c : Cfg) : DepthLE h (t.toNode c) := by
  induction hf with
  | leaf h d =>
    have : (T.toNode c (.leaf d)).links = [] := by
      simp only [T.toNode]; unfold Cfg.leafNode
      split
      · cases c.cidBuilder <;> rfl
      · rfl
    cases h with
    | zero => exact this
    | succ h => intro l hl; rw [this] at hl; cases hl
  | node h ts hl hs ih =>
    intro l hl
    simp only [T.toNode, Node.links, T.toLinks_eq_map, List.mem_map] at hl
    obtain ⟨t, ht, rfl⟩ := hl
    exact ih t ht

theorem leaf_len (c : Cfg) (hc : c.OK) (cid : Node → Bytes) {d : Bytes} (h : d.length ≤ blockSizeLimit) :
    (encBlock cid (c.leafNode d)).length ≤ d.length + 14 ∧ (c.leafNode d).links = [] := by
  unfold Cfg.leafNode
  split
  · cases c.cidBuilder <;> exact ⟨by simp [encBlock], rfl⟩
  · refine ⟨?_, rfl⟩
    unfold blockSizeLimit at h
    have ht : (((FSNode.new c.leafType).setData (some d)).bytes).length ≤ d.length + 10 := by
      have hf : ((FSNode.new c.leafType).setData (some d)).format =
          { typ := some c.leafType, data := some d, filesize := some (UInt64.ofNat d.length) } := by
        simp [FSNode.setData, FSNode.new, FSNode.updateFilesize, Pb.Data.getFilesize, FSNode.data, Pb.Data.getData]
      unfold FSNode.bytes FSNode.getBytes Pb.Data.marshal
      rw [hf]
      have h1 := Pb.encVarint_length_lt (k := 2) (n := d.length) (by omega)
      have h2 := Pb.encVarint_length_lt (k := 2) (n := (UInt64.ofNat d.length).toNat) (by simp only [UInt64.toNat_ofNat']; omega)
      have h3 : (Pb.encVarint (Pb.signExt c.leafType)).length = 1 := by
        rcases hc with h | h <;> rw [h] <;> decide
      simp only [Pb.encOpt, Pb.encBlocksizes, List.length_append, List.length_nil, Pb.encVarintField_length (show 1 < 16 by omega),
        Pb.encVarintField_length (show 3 < 16 by omega), Pb.encBytesField_length _ (show 2 < 15 by omega), h3]
      omega
    simp only [encBlock, List.map_nil, List.flatten_nil, List.nil_append]
    split
    · simp
    · rw [Pb.encBytesField_length _ (by omega)]
      have := Pb.encVarint_length_lt (k := 2) (n := (((FSNode.new c.leafType).setData (some d)).bytes).length) (by omega)
      omega

theorem node_len (c : Cfg) {cid : Node → Bytes} {w : Nat} (hw : w < 100) (hcid : ∀ x, (cid x).length ≤ w) (ts : List T) :
    (encBlock cid (T.toNode c (.node ts))).length ≤ ts.length * (w + 28) + 24 := by
  simp only [T.toNode, encBlock, List.length_append]
  have h1 : ((List.map (fun l => Pb.encBytesField 2 (encLink cid l)) (T.toLinks c ts)).flatten).length ≤ ts.length * (w + 17) := by
    induction ts with
    | nil => simp [T.toLinks]
    | cons t ts ih =>
      have := encLink_le hw hcid (t.toNode c)
      simp only [T.toLinks, List.map_cons, List.flatten_cons, List.length_append, List.length_cons, Nat.succ_mul]
      omega
  have h2 : ((addSizes (FSNode.new TFile) (ts.map T.size)).bytes).length ≤ 13 + 11 * ts.length := by
    have hf : (addSizes (FSNode.new TFile) (ts.map T.size)).format = { typ := some TFile, filesize := some (ts.map T.size).sum, blocksizes := ts.map T.size } := by
      rw [addSizes_format]
      by_cases h : ts.map T.size = []
      · rw [h]; rfl
      · simp [h, FSNode.new, FSNode.updateFilesize, Pb.Data.getFilesize]
    unfold FSNode.bytes FSNode.getBytes Pb.Data.marshal
    rw [hf]
    have h1 := Pb.encVarint_length_le ((ts.map T.size).sum).toNat
    have h2 := Pb.encBlocksizes_length (ts.map T.size)
    have h3 : (Pb.encVarint (Pb.signExt TFile)).length = 1 := by decide
    simp only [List.length_map] at h2
    simp only [Pb.encOpt, List.length_append, List.length_nil, Pb.encVarintField_length (show 1 < 16 by omega),
      Pb.encVarintField_length (show 3 < 16 by omega), h3]
    omega
  have h3 : (if (addSizes (FSNode.new TFile) (ts.map T.size)).bytes = [] then ([] : Bytes)
      else Pb.encBytesField 1 (addSizes (FSNode.new TFile) (ts.map T.size)).bytes).length ≤ 24 + 11 * ts.length := by
    split
    · simp
    · rw [Pb.encBytesField_length _ (by omega)]
      have := Pb.encVarint_length_le ((addSizes (FSNode.new TFile) (ts.map T.size)).bytes).length
      omega
  have : ts.length * (w + 28) = ts.length * (w + 17) + 11 * ts.length := by ring
  omega

/-- The blocks of a tree. -/
theorem T.Fan.blocks {k h : Nat} {t : T} (hf : t.Fan k h) (c : Cfg) (hc : c.OK) {cid : Node → Bytes} {w : Nat} (hw : w < 100)
    (hcid : ∀ x, (cid x).length ≤ w) (hl : ∀ d ∈ t.chunks, d.length ≤ blockSizeLimit) : ∀ x, Reach (t.toNode c) x →
      x.links.length ≤ k ∧ ((∃ d ∈ t.chunks, x.links = [] ∧ (encBlock cid x).length ≤ d.length + 14) ∨
        (encBlock cid x).length ≤ x.links.length * (w + 28) + 24) := by
  induction hf with
  | leaf h d =>
    intro x hx
    rw [reach_leafNode c d hx]
    obtain ⟨h1, h2⟩ := leaf_len c hc cid (hl d (by simp [T.chunks]))
    exact ⟨by rw [h2]; simp, .inl ⟨d, by simp [T.chunks], h2, h1⟩⟩
  | node h ts hle hs ih =>
    intro x hx
    cases hx with
    | refl =>
      refine ⟨by simp only [T.toNode, Node.links, T.toLinks_length]; exact hle, .inr ?_⟩
      have : (T.toNode c (.node ts)).links.length = ts.length := by simp only [T.toNode, Node.links, T.toLinks_length]
      rw [this]
      exact node_len c hw hcid ts
    | step hm hx =>
      simp only [T.toNode, Node.links, T.toLinks_eq_map, List.mem_map] at hm
      obtain ⟨t, ht, rfl⟩ := hm
      have hsub : ∀ d ∈ t.chunks, d ∈ T.chunks (.node ts) := by
        intro d hd
        obtain ⟨a, b, rfl⟩ := List.append_of_mem ht
        simp only [T.chunks, T.chunksL_append, T.chunksL, List.mem_append]
        exact .inr (.inl hd)
      obtain ⟨h1, h2⟩ := ih t ht (fun d hd => hl d (hsub d hd)) x hx
      refine ⟨h1, h2.imp (fun ⟨d, hd, h⟩ => ⟨d, hsub d hd, h⟩) id⟩

namespace Balanced

theorem Full.fan {m : Nat} : ∀ {d : Nat} {t : T}, Full m d t → t.Fan m d
  | 0, _, ⟨c, h⟩ => by subst h; exact .leaf _ c
  | d + 1, _, ⟨ts, he, hl, hf⟩ => by subst he; exact .node d ts (by omega) (fun t ht => (hf t ht).fan)

theorem Left.fan {m : Nat} : ∀ {d : Nat} {t : T}, Left m d t → t.Fan m d
  | 0, _, ⟨c, h⟩ => by subst h; exact .leaf _ c
  | d + 1, _, ⟨pre, last, he, hl, hf, h⟩ => by
    subst he
    refine .node d _ (by simp; omega) (fun t ht => ?_)
    rcases List.mem_append.mp ht with ht | ht
    · exact (hf t ht).fan
    · simp only [List.mem_singleton] at ht; subst ht; exact h.fan

end Balanced

namespace Trickle

theorem kd_le {m i D : Nat} (h : i < m + depthRepeat * D) : kd m i ≤ D := by
  unfold kd depthRepeat at *
  split <;> omega

theorem TF.fan {m D : Nat} {t : T} (h : TF m D t) : ∀ {k : Nat}, m + depthRepeat * (D - 1) ≤ k → t.Fan k D := by
  induction h with
  | leaf c => intro _ _; exact .leaf _ c
  | node D ts hl h ih =>
    intro k hk
    refine .node D ts (by simp at hk; omega) (fun t ht => ?_)
    obtain ⟨i, hi⟩ := List.mem_iff_getElem?.mp ht
    have hlt : i < ts.length := by by_contra hc; rw [List.getElem?_eq_none (by omega)] at hi; cases hi
    have hd := kd_le (m := m) (D := D) (i := i) (by omega)
    refine (ih i t hi ?_).mono (Nat.le_refl _) hd
    unfold depthRepeat at *
    omega

theorem TG.fan {m D : Nat} {t : T} (h : TG m D t) : ∀ {k : Nat}, m + depthRepeat * (D - 1) ≤ k → t.Fan k D := by
  induction h with
  | leaf c => intro _ _; exact .leaf _ c
  | node D pre last hl h hlast ih =>
    intro k hk
    refine .node D _ (by simp at hk ⊢; omega) (fun t ht => ?_)
    rcases List.mem_append.mp ht with ht | ht
    · obtain ⟨i, hi⟩ := List.mem_iff_getElem?.mp ht
      have hlt : i < pre.length := by by_contra hc; rw [List.getElem?_eq_none (by omega)] at hi; cases hi
      have hd := kd_le (m := m) (D := D) (i := i) (by omega)
      refine ((h i t hi).fan ?_).mono (Nat.le_refl _) hd
      unfold depthRepeat at *
      omega
    · simp only [List.mem_singleton] at ht; subst ht
      have hd := kd_le (m := m) (D := D) (i := pre.length) (by omega)
      refine (ih ?_).mono (Nat.le_refl _) hd
      unfold depthRepeat at *
      omega

theorem chunksL_const {n : Nat} : ∀ {ts : List T}, (∀ t ∈ ts, t.chunks.length = n) → (T.chunksL ts).length = ts.length * n
  | [], _ => by simp [T.chunksL]
  | t :: ts, h => by
    simp only [T.chunksL, List.length_append, List.length_cons]
    rw [h t (by simp), chunksL_const (fun x hx => h x (by simp [hx]))]
    ring

/-- How many chunks a full tree has. -/
theorem TF.count {m : Nat} : ∀ {D : Nat} {t : T}, TF m (D + 1) t → t.chunks.length = m * 5 ^ D
  | 0, _, .node _ ts hl h => by
    simp only [T.chunks]
    rw [chunksL_const (n := 1)]
    · simp at hl; simp [hl]
    · intro t ht
      obtain ⟨i, hi⟩ := List.mem_iff_getElem?.mp ht
      have hlt : i < ts.length := by by_contra hc; rw [List.getElem?_eq_none (by omega)] at hi; cases hi
      have := h i t hi
      rw [show kd m i = 0 by unfold kd; rw [if_pos (by simp at hl; omega)]] at this
      cases this
      simp [T.chunks]
  | D + 1, _, .node _ ts hl h => by
    have h1 : TF m (D + 1) (.node (ts.take (m + depthRepeat * D))) := by
      refine .node D _ ?_ (fun i t hi => h i t ?_)
      · rw [List.length_take, hl]; unfold depthRepeat; omega
      · rw [List.getElem?_take] at hi
        split at hi
        · exact hi
        · cases hi
    have h2 : ∀ t ∈ ts.drop (m + depthRepeat * D), t.chunks.length = m * 5 ^ D := by
      intro t ht
      obtain ⟨i, hi⟩ := List.mem_iff_getElem?.mp ht
      rw [List.getElem?_drop] at hi
      have hlt : m + depthRepeat * D + i < ts.length := by by_contra hc; rw [List.getElem?_eq_none (by omega)] at hi; cases hi
      have h3 := h _ t hi
      rw [show kd m (m + depthRepeat * D + i) = D + 1 by unfold kd depthRepeat at *; rw [if_neg (by omega)]; omega] at h3
      exact h3.count
    have h3 := h1.count
    have h4 := chunksL_const h2
    have h5 : (ts.drop (m + depthRepeat * D)).length = 4 := by rw [List.length_drop, hl]; unfold depthRepeat; omega
    simp only [T.chunks] at h3 ⊢
    rw [← List.take_append_drop (m + depthRepeat * D) ts, T.chunksL_append, List.length_append, h3, h4, h5]
    ring

/-- How many children the root has. -/
theorem LG.links {m k : Nat} {ts : List T} (h : LG m 0 ts False) (hk : (T.chunksL ts).length ≤ m * 5 ^ k) : ts.length ≤ m + depthRepeat * k := by
  by_contra hc
  obtain ⟨pre, last, rfl, h1, h2, _⟩ := h.last (by intro h; subst h; simp at hc)
  simp only [List.length_append, List.length_singleton] at hc
  simp only [Nat.zero_add] at h1 h2
  have h3 : TF m (k + 1) (.node (pre.take (m + depthRepeat * k))) := by
    refine .node k _ (by rw [List.length_take]; omega) (fun i t hi => h1 i t ?_)
    rw [List.getElem?_take] at hi
    split at hi
    · exact hi
    · cases hi
  have h4 := h3.count
  have h5 := h2.pos
  simp only [T.chunks] at h4
  rw [T.chunksL_append, List.length_append] at hk
  rw [← List.take_append_drop (m + depthRepeat * k) pre, T.chunksL_append, List.length_append] at hk
  simp only [T.chunksL, List.append_nil] at hk
  omega

theorem LG.fan {m k : Nat} {ts : List T} (h : LG m 0 ts False) (hk : (T.chunksL ts).length ≤ m * 5 ^ k) : (T.node ts).Fan (m + depthRepeat * k) (k + 1) := by
  have hl := h.links hk
  by_cases hne : ts = []
  · subst hne; exact .node _ _ (by simp) (by simp)
  · exact (h.tg hne hl False.elim).1.fan (by simp)

end Trickle

end Import
end Unixfs
