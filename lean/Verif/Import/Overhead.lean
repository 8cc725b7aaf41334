import Verif.Import.BlockLen

/-!
# How many nodes and bytes a tree costs besides its chunks

The definitions in this file belong to proofs; they model no code.
-/

namespace Unixfs.Import
open Unixfs.Spec

mutual
/-- The number of inner nodes of a tree. -/
def T.inner : T → Nat
  | .leaf _ => 0
  | .node ts => 1 + T.innerL ts
def T.innerL : List T → Nat
  | [] => 0
  | t :: ts => t.inner + T.innerL ts
end

theorem T.innerL_append (a b : List T) : T.innerL (a ++ b) = T.innerL a + T.innerL b := by
  induction a with
  | nil => simp [T.innerL]
  | cons t a ih => simp only [List.cons_append, T.innerL, ih]; omega

mutual
theorem T.internals_le (c : Cfg) : ∀ t : T, (internals (t.toNode c)).length ≤ t.inner
  | .leaf d => by
    simp only [T.toNode]
    unfold Cfg.leafNode
    split
    · split <;> simp [internals]
    · simp [internals]
  | .node [] => by simp [T.toNode, T.toLinks, internals]
  | .node (t :: ts) => by
    have := T.internalsL_le c (t :: ts)
    simp only [T.toNode, T.toLinks, internals, List.length_append, List.length_singleton, T.inner] at this ⊢
    omega
theorem T.internalsL_le (c : Cfg) : ∀ ts : List T, (internalsL (T.toLinks c ts)).length ≤ T.innerL ts
  | [] => by simp [T.toLinks, internalsL]
  | t :: ts => by
    have h1 := T.internals_le c t
    have h2 := T.internalsL_le c ts
    simp only [T.toLinks, makeLink, internalsL, List.length_append, T.innerL]
    omega
end

mutual
/-- The bytes of the blocks of a tree. -/
theorem T.bytes_le (c : Cfg) (hc : c.OK) {cid : Node → Bytes} {w : Nat} (hw : w < 100) (hcid : ∀ x, (cid x).length ≤ w) :
    ∀ t : T, (∀ d ∈ t.chunks, d.length ≤ blockSizeLimit) →
      treeBytes cid (t.toNode c) + (w + 28) ≤ t.chunks.flatten.length + 14 * t.chunks.length + (t.chunks.length + t.inner) * (w + 28) + 24 * t.inner
  | .leaf d, hl => by
    have h1 := (leaf_len c hc cid (hl d (by simp [T.chunks]))).1
    have h2 : treeBytes cid (c.leafNode d) = (encBlock cid (c.leafNode d)).length := by
      unfold Cfg.leafNode
      split
      · split <;> rfl
      · simp [treeBytes, treeBytesL]
    simp only [T.toNode, T.chunks, T.inner, List.flatten_cons, List.flatten_nil, List.append_nil, List.length_singleton]
    omega
  | .node ts, hl => by
    have h1 := node_len c hw hcid ts
    have h2 := T.bytesL_le c hc hw hcid ts hl
    simp only [T.toNode, treeBytes, T.chunks, T.inner] at h1 ⊢
    have h3 : ((T.chunksL ts).length + (1 + T.innerL ts)) * (w + 28) = ((T.chunksL ts).length + T.innerL ts) * (w + 28) + (w + 28) := by ring
    omega
theorem T.bytesL_le (c : Cfg) (hc : c.OK) {cid : Node → Bytes} {w : Nat} (hw : w < 100) (hcid : ∀ x, (cid x).length ≤ w) :
    ∀ ts : List T, (∀ d ∈ T.chunksL ts, d.length ≤ blockSizeLimit) →
      treeBytesL cid (T.toLinks c ts) + ts.length * (w + 28) ≤
        (T.chunksL ts).flatten.length + 14 * (T.chunksL ts).length + ((T.chunksL ts).length + T.innerL ts) * (w + 28) + 24 * T.innerL ts
  | [], _ => by simp [T.toLinks, treeBytesL, T.chunksL, T.innerL]
  | t :: ts, hl => by
    have h1 := T.bytes_le c hc hw hcid t (fun d hd => hl d (by simp [T.chunksL, hd]))
    have h2 := T.bytesL_le c hc hw hcid ts (fun d hd => hl d (by simp [T.chunksL, hd]))
    simp only [T.toLinks, makeLink, treeBytesL, T.chunksL, T.innerL, List.flatten_append, List.length_append, List.length_cons]
    have h3 : (t.chunks.length + (T.chunksL ts).length + (t.inner + T.innerL ts)) * (w + 28) =
      (t.chunks.length + t.inner) * (w + 28) + ((T.chunksL ts).length + T.innerL ts) * (w + 28) := by ring
    have h4 : (ts.length + 1) * (w + 28) = ts.length * (w + 28) + (w + 28) := by ring
    omega
end

namespace Balanced

theorem full_innerL {m d : Nat} (ih : ∀ t : T, Full m d t → t.inner * (m - 1) + 1 = t.chunks.length) :
    ∀ ts : List T, (∀ t ∈ ts, Full m d t) → T.innerL ts * (m - 1) + ts.length = (T.chunksL ts).length
  | [], _ => by simp [T.innerL, T.chunksL]
  | t :: ts, h => by
    have h1 := ih t (h t (by simp))
    have h2 := full_innerL ih ts (fun x hx => h x (by simp [hx]))
    simp only [T.innerL, T.chunksL, List.length_append, List.length_cons, Nat.add_mul]
    omega

/-- A full tree of `m ^ d` chunks has `(m ^ d - 1) / (m - 1)` inner nodes. -/
theorem Full.inner {m : Nat} (hm : 1 ≤ m) : ∀ {d : Nat} {t : T}, Full m d t → t.inner * (m - 1) + 1 = t.chunks.length
  | 0, _, ⟨c, h⟩ => by subst h; simp [T.inner, T.chunks]
  | d + 1, _, ⟨ts, he, hl, hf⟩ => by
    subst he
    have := full_innerL (fun t ht => Full.inner hm (t := t) ht) ts hf
    simp only [T.inner, T.chunks, Nat.add_mul]
    omega

theorem Left.inner {m : Nat} (hm : 1 ≤ m) : ∀ {d : Nat} {t : T}, Left m d t → t.inner * (m - 1) + 1 ≤ t.chunks.length + d * (m - 1)
  | 0, _, ⟨c, h⟩ => by subst h; simp [T.inner, T.chunks]
  | d + 1, _, ⟨pre, last, he, hl, hf, h⟩ => by
    subst he
    have h1 := full_innerL (fun t ht => Full.inner hm (t := t) ht) pre hf
    have h2 := h.inner hm
    simp only [T.inner, T.chunks, T.innerL_append, T.chunksL_append, T.innerL, T.chunksL, List.length_append, List.append_nil, Nat.add_mul]
    omega

end Balanced

namespace Trickle

theorem leaf_innerL {m : Nat} : ∀ (ts : List T) (i : Nat), (∀ j t, ts[j]? = some t → TF m (kd m (i + j)) t) →
    (∀ D t, TF m (D + 1) t → t.inner * m = t.chunks.length) → T.innerL ts * m + min ts.length (m - i) = (T.chunksL ts).length
  | [], i, _, _ => by simp [T.innerL, T.chunksL]
  | t :: ts, i, h, ih => by
    have h1 := leaf_innerL ts (i + 1) (fun j t hj => by have := h (j + 1) t (by simpa using hj); rwa [show i + (j + 1) = i + 1 + j by omega] at this) ih
    have h2 := h 0 t (by simp)
    simp only [T.innerL, T.chunksL, List.length_append, List.length_cons, Nat.add_mul, Nat.add_zero] at *
    by_cases hi : i < m
    · rw [show kd m i = 0 by unfold kd; rw [if_pos hi]] at h2
      cases h2
      simp only [T.inner, T.chunks, List.length_singleton]
      omega
    · obtain ⟨D, hD⟩ : ∃ D, kd m i = D + 1 := ⟨_, by unfold kd; rw [if_neg hi]⟩
      rw [hD] at h2
      have := ih D t h2
      omega

/-- A full trickle tree has one inner node for each `m` chunks. -/
theorem TF.inner {m D : Nat} {t : T} (h : TF m D t) : ∀ D', D = D' + 1 → t.inner * m = t.chunks.length := by
  induction h with
  | leaf c => intro D' h; cases h
  | node D ts hl h ih =>
    intro _ _
    have key : ∀ (ts : List T) (i : Nat), (∀ j t, ts[j]? = some t → TF m (kd m (i + j)) t) →
        (∀ j t, ts[j]? = some t → ∀ D', kd m (i + j) = D' + 1 → t.inner * m = t.chunks.length) →
        T.innerL ts * m + min ts.length (m - i) = (T.chunksL ts).length := by
      intro ts
      induction ts with
      | nil => intro i _ _; simp [T.innerL, T.chunksL]
      | cons t ts ih2 =>
        intro i h ih
        have h1 := ih2 (i + 1) (fun j t hj => by have := h (j + 1) t (by simpa using hj); rwa [show i + (j + 1) = i + 1 + j by omega] at this)
          (fun j t hj => by have := ih (j + 1) t (by simpa using hj); rwa [show i + (j + 1) = i + 1 + j by omega] at this)
        have h2 := h 0 t (by simp)
        have h3 := ih 0 t (by simp)
        simp only [T.innerL, T.chunksL, List.length_append, List.length_cons, Nat.add_mul, Nat.add_zero] at *
        by_cases hi : i < m
        · rw [show kd m i = 0 by unfold kd; rw [if_pos hi]] at h2
          cases h2
          simp only [T.inner, T.chunks, List.length_singleton]
          omega
        · have := h3 ((i - m) / depthRepeat) (by unfold kd; rw [if_neg hi])
          omega
    have := key ts 0 (fun j t hj => by simpa using h j t hj) (fun j t hj => by simpa using ih j t hj)
    simp only [T.inner, T.chunks, Nat.add_mul]
    omega

theorem TG.inner {m D : Nat} (hm : 1 ≤ m) {t : T} (h : TG m D t) : ∀ D', D = D' + 1 → t.inner * m + 1 ≤ t.chunks.length + m := by
  induction h with
  | leaf c => intro D' h; cases h
  | node D pre last hl h hlast ih =>
    intro _ _
    have h1 := leaf_innerL pre 0 (fun j t hj => by simpa using h j t hj) (fun D t ht => ht.inner D rfl)
    simp only [T.inner, T.chunks, T.innerL_append, T.chunksL_append, T.innerL, T.chunksL, List.length_append, List.append_nil, Nat.add_mul]
    by_cases hi : pre.length < m
    · rw [show kd m pre.length = 0 by unfold kd; rw [if_pos hi]] at hlast
      cases hlast
      simp only [T.inner, T.chunks, List.length_singleton]
      omega
    · have := ih ((pre.length - m) / depthRepeat) (by unfold kd; rw [if_neg hi])
      omega

theorem LG.inner {m : Nat} (hm : 1 ≤ m) {ts : List T} (h : LG m 0 ts False) (hne : ts ≠ []) :
    (T.node ts).inner * m + 1 ≤ (T.chunksL ts).length + m := by
  obtain ⟨D, hD⟩ : ∃ D, ts.length ≤ m + depthRepeat * D := ⟨ts.length, by unfold depthRepeat; omega⟩
  exact (h.tg hne hD False.elim).1.inner hm D rfl

end Trickle

end Unixfs.Import
