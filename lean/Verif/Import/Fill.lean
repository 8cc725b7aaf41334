import Verif.Import.TrickleLemmas
import Verif.Spec.Blocks

/-!
# Both layouts fill their trees from the left

So the shape of the tree depends on nothing but the number of chunks. Helper lemmas for C81.

The definitions in this file belong to proofs; they model no code.
-/

namespace Unixfs.Import
open Unixfs.Spec

/-! ### Trees of the same shape -/

mutual
/-- Two trees of the same shape. -/
def T.Same : T → T → Prop
  | .leaf _, .leaf _ => True
  | .node ts, .node ts' => T.SameL ts ts'
  | _, _ => False
def T.SameL : List T → List T → Prop
  | [], [] => True
  | t :: ts, t' :: ts' => t.Same t' ∧ T.SameL ts ts'
  | _, _ => False
end

mutual
theorem T.Same.count : ∀ {t t' : T}, t.Same t' → t.chunks.length = t'.chunks.length
  | .leaf _, .leaf _, _ => rfl
  | .node ts, .node ts', h => by
    simp only [T.Same] at h
    simp only [T.chunks]
    exact T.SameL.count h
  | .leaf _, .node _, h => by simp [T.Same] at h
  | .node _, .leaf _, h => by simp [T.Same] at h
theorem T.SameL.count : ∀ {ts ts' : List T}, T.SameL ts ts' → (T.chunksL ts).length = (T.chunksL ts').length
  | [], [], _ => rfl
  | t :: ts, t' :: ts', h => by
    simp only [T.SameL] at h
    simp only [T.chunksL, List.length_append]
    rw [T.Same.count h.1, T.SameL.count h.2]
  | [], _ :: _, h => by simp [T.SameL] at h
  | _ :: _, [], h => by simp [T.SameL] at h
end

mutual
/-- A shape and the chunks are all there is to a tree. -/
theorem T.Same.ext : ∀ {t t' : T}, t.Same t' → t.chunks = t'.chunks → t = t'
  | .leaf _, .leaf _, _, hc => by simpa [T.chunks] using hc
  | .node ts, .node ts', h, hc => by
    simp only [T.Same] at h
    simp only [T.chunks] at hc
    rw [T.SameL.ext h hc]
  | .leaf _, .node _, h, _ => by simp [T.Same] at h
  | .node _, .leaf _, h, _ => by simp [T.Same] at h
theorem T.SameL.ext : ∀ {ts ts' : List T}, T.SameL ts ts' → T.chunksL ts = T.chunksL ts' → ts = ts'
  | [], [], _, _ => rfl
  | t :: ts, t' :: ts', h, hc => by
    simp only [T.SameL] at h
    simp only [T.chunksL] at hc
    obtain ⟨h1, h2⟩ := List.append_inj hc (T.Same.count h.1)
    rw [T.Same.ext h.1 h1, T.SameL.ext h.2 h2]
  | [], _ :: _, h, _ => by simp [T.SameL] at h
  | _ :: _, [], h, _ => by simp [T.SameL] at h
end

theorem T.SameL.append {a a' b b' : List T} (h1 : T.SameL a a') (h2 : T.SameL b b') : T.SameL (a ++ b) (a' ++ b') := by
  induction a generalizing a' with
  | nil =>
    cases a' with
    | nil => exact h2
    | cons t a' => simp [T.SameL] at h1
  | cons t a ih =>
    cases a' with
    | nil => simp [T.SameL] at h1
    | cons t' a' =>
      simp only [T.SameL, List.cons_append] at h1 ⊢
      exact ⟨h1.1, ih h1.2⟩

/-! ### Places in a tree -/

/-- The sub-tree at a place. -/
def T.sub : T → List Nat → Option T
  | t, [] => some t
  | .leaf _, _ :: _ => none
  | .node ts, i :: p =>
    match ts[i]? with
    | some t => t.sub p
    | none => none

theorem leafNode_links (c : Cfg) (d : Bytes) : (c.leafNode d).links = [] := by
  unfold Cfg.leafNode
  split
  · split <;> rfl
  · rfl

theorem blockAt_toNode (c : Cfg) : ∀ (p : List Nat) (t : T), blockAt (t.toNode c) p = (t.sub p).map (T.toNode c)
  | [], t => by cases t <;> simp [blockAt, T.sub]
  | i :: p, .leaf d => by
    simp only [blockAt, T.sub, T.toNode, leafNode_links]
    rfl
  | i :: p, .node ts => by
    simp only [blockAt, T.sub, T.toNode, Node.links, T.toLinks_eq_map, List.getElem?_map]
    cases ts[i]? with
    | none => rfl
    | some t => exact blockAt_toNode c p t

theorem T.chunksL_split : ∀ (ts : List T) (i : Nat) {t : T}, ts[i]? = some t →
    T.chunksL ts = T.chunksL (ts.take i) ++ t.chunks ++ T.chunksL (ts.drop (i + 1))
  | [], i, t, h => by simp at h
  | t :: ts, 0, x, h => by simp at h; subst h; simp [T.chunksL]
  | t :: ts, i + 1, x, h => by
    simp only [List.getElem?_cons_succ] at h
    simp only [T.chunksL, List.take_succ_cons, List.drop_succ_cons]
    rw [T.chunksL_split ts i h]
    simp

theorem T.SameL.get : ∀ {ts ts' : List T} (_ : T.SameL ts ts') (i : Nat), (ts[i]? = none ∧ ts'[i]? = none) ∨
    ∃ t t', ts[i]? = some t ∧ ts'[i]? = some t' ∧ t.Same t' ∧ (T.chunksL (ts.take i)).length = (T.chunksL (ts'.take i)).length
  | [], [], _, i => .inl (by simp)
  | t :: ts, t' :: ts', h, 0 => by
    simp only [T.SameL] at h
    exact .inr ⟨t, t', rfl, rfl, h.1, by simp⟩
  | t :: ts, t' :: ts', h, i + 1 => by
    simp only [T.SameL] at h
    rcases T.SameL.get h.2 i with hn | ⟨x, x', h1, h2, h3, h4⟩
    · exact .inl (by simpa using hn)
    · refine .inr ⟨x, x', by simpa using h1, by simpa using h2, h3, ?_⟩
      simp only [List.take_succ_cons, T.chunksL, List.length_append]
      rw [h4, h.1.count]
  | [], _ :: _, h, _ => by simp [T.SameL] at h
  | _ :: _, [], h, _ => by simp [T.SameL] at h

theorem window_mid (a b c : List Bytes) (q k : Nat) (h : q + k ≤ b.length) : window (a ++ b ++ c) (a.length + q) k = window b q k := by
  unfold window
  rw [List.append_assoc, ← List.drop_drop, List.drop_left, List.drop_append_of_le_length (by omega), List.take_append_of_le_length (by simp; omega)]

/-- Sub-trees of trees of the same shape. -/
theorem T.Same.sub : ∀ (p : List Nat) {t t' : T}, t.Same t' → (t.sub p = none ∧ t'.sub p = none) ∨
    ∃ x x' a k, t.sub p = some x ∧ t'.sub p = some x' ∧ x.Same x' ∧ a + k ≤ t.chunks.length ∧ x.chunks = window t.chunks a k ∧ x'.chunks = window t'.chunks a k
  | [], t, t', h => .inr ⟨t, t', 0, t.chunks.length, by cases t <;> rfl, by cases t' <;> rfl, h, by simp, by simp [window], by simp [window, h.count]⟩
  | i :: p, .leaf _, .leaf _, _ => .inl ⟨rfl, rfl⟩
  | i :: p, .leaf _, .node _, h => by simp [T.Same] at h
  | i :: p, .node _, .leaf _, h => by simp [T.Same] at h
  | i :: p, .node ts, .node ts', h => by
    simp only [T.Same] at h
    rcases h.get i with ⟨h1, h2⟩ | ⟨y, y', h1, h2, h3, h4⟩
    · exact .inl ⟨by simp [T.sub, h1], by simp [T.sub, h2]⟩
    · rcases T.Same.sub p h3 with ⟨g1, g2⟩ | ⟨x, x', a, k, g1, g2, g3, g4, g5, g6⟩
      · exact .inl ⟨by simp [T.sub, h1, g1], by simp [T.sub, h2, g2]⟩
      · have e := T.chunksL_split ts i h1
        have e' := T.chunksL_split ts' i h2
        refine .inr ⟨x, x', (T.chunksL (ts.take i)).length + a, k, by simp [T.sub, h1, g1], by simp [T.sub, h2, g2], g3, ?_, ?_, ?_⟩
        · simp only [T.chunks]
          rw [e]
          simp only [List.length_append]
          omega
        · simp only [T.chunks]
          rw [e, window_mid _ _ _ _ _ g4, g5]
        · simp only [T.chunks]
          rw [h4, e', window_mid _ _ _ _ _ (by rw [← h3.count]; exact g4), g6]

mutual
theorem T.sub_lim : ∀ (p : List Nat) {t x : T}, t.Lim → t.sub p = some x → x.Lim
  | [], t, x, h, hx => by cases t <;> (simp only [T.sub, Option.some.injEq] at hx; subst hx; exact h)
  | i :: p, .leaf _, x, _, hx => by cases hx
  | i :: p, .node ts, x, h, hx => by
    simp only [T.sub] at hx
    split at hx
    · rename_i y hy
      refine T.sub_lim p (t := y) ?_ hx
      have : ∀ (ts : List T), T.LimL ts → ∀ i : Nat, ts[i]? = some y → y.Lim := by
        intro ts
        induction ts with
        | nil => intro _ i hi; simp at hi
        | cons z ts ih =>
          intro hl i hi
          cases i with
          | zero => simp at hi; subst hi; exact hl.1
          | succ i => exact ih hl.2 i (by simpa using hi)
      exact this ts h i hy
    · cases hx
end

theorem T.Same.aligned {t t' : T} (c : Cfg) (hc : c.OK) (h : t.Same t') (hl : t.Lim) (hl' : t'.Lim) :
    Aligned (t.toNode c) (t'.toNode c) t.chunks t'.chunks := by
  intro p
  rw [blockAt_toNode, blockAt_toNode]
  rcases T.Same.sub p h with ⟨h1, h2⟩ | ⟨x, x', a, k, h1, h2, h3, h4, h5, h6⟩
  · exact .inl ⟨by rw [h1]; rfl, by rw [h2]; rfl⟩
  · refine .inr ⟨x.toNode c, x'.toNode c, a, k, by rw [h1]; rfl, by rw [h2]; rfl, h4, ?_, ?_, ?_⟩
    · rw [content_toNode c hc x (T.sub_lim p hl h1), h5]
    · rw [content_toNode c hc x' (T.sub_lim p hl' h2), h6]
    · intro he
      rw [← h5, ← h6] at he
      rw [h3.ext he]

theorem ext_off {a b : List Bytes} {i : Nat} (h : ∀ j, j ≠ i → a[j]? = b[j]?) (hi : a.length ≤ i) (hl : a.length = b.length) : a = b := by
  refine List.ext_getElem? (fun j => ?_)
  by_cases hj : j = i
  · subst hj; rw [List.getElem?_eq_none hi, List.getElem?_eq_none (by omega)]
  · exact h j hj

mutual
/-- Trees whose chunks differ at one place differ along one path. -/
theorem T.Same.one : ∀ {t t' : T}, t.Same t' → ∀ (i : Nat), (∀ j, j ≠ i → t.chunks[j]? = t'.chunks[j]?) →
    ∃ q : List Nat, ∀ p x', t'.sub p = some x' → p <+: q ∨ t.sub p = some x'
  | .leaf d, .leaf d', _, i, _ => ⟨[], fun p x' hp => by
      cases p with
      | nil => exact .inl (List.prefix_refl _)
      | cons a p => cases hp⟩
  | .leaf _, .node _, h, _, _ => by simp [T.Same] at h
  | .node _, .leaf _, h, _, _ => by simp [T.Same] at h
  | .node ts, .node ts', h, i, hc => by
    simp only [T.Same] at h
    simp only [T.chunks] at hc
    obtain ⟨k, q, h1, h2⟩ := T.SameL.one h i hc
    refine ⟨k :: q, fun p x' hp => ?_⟩
    cases p with
    | nil => exact .inl (List.nil_prefix)
    | cons a p =>
      by_cases ha : a = k
      · subst ha
        simp only [T.sub] at hp ⊢
        rcases h.get a with ⟨g1, g2⟩ | ⟨y, y', g1, g2, _⟩
        · rw [g2] at hp; cases hp
        · rw [g2] at hp
          rw [g1]
          rcases h2 y y' g1 g2 p x' hp with hq | hq
          · exact .inl (by simpa using hq)
          · exact .inr hq
      · simp only [T.sub] at hp ⊢
        rw [h1 a ha]
        exact .inr hp
theorem T.SameL.one : ∀ {ts ts' : List T}, T.SameL ts ts' → ∀ (i : Nat), (∀ j, j ≠ i → (T.chunksL ts)[j]? = (T.chunksL ts')[j]?) →
    ∃ (k : Nat) (q : List Nat), (∀ j, j ≠ k → ts[j]? = ts'[j]?) ∧
      ∀ y y', ts[k]? = some y → ts'[k]? = some y' → ∀ p x', y'.sub p = some x' → p <+: q ∨ y.sub p = some x'
  | [], [], _, i, _ => ⟨0, [], fun _ _ => rfl, fun y y' h => by simp at h⟩
  | [], _ :: _, h, _, _ => by simp [T.SameL] at h
  | _ :: _, [], h, _, _ => by simp [T.SameL] at h
  | t :: ts, t' :: ts', h, i, hc => by
    simp only [T.SameL] at h
    simp only [T.chunksL] at hc
    have hn := h.1.count
    have hn2 := T.SameL.count h.2
    by_cases hi : i < t.chunks.length
    · obtain ⟨q, hq⟩ := T.Same.one h.1 i (fun j hj => by
        by_cases hjl : j < t.chunks.length
        · have := hc j hj
          rwa [List.getElem?_append_left hjl, List.getElem?_append_left (by omega)] at this
        · rw [List.getElem?_eq_none (by omega), List.getElem?_eq_none (by omega)])
      have he : ts = ts' := T.SameL.ext h.2 (List.ext_getElem? (fun j => by
        have := hc (t.chunks.length + j) (by omega)
        rw [List.getElem?_append_right (by omega), List.getElem?_append_right (by omega)] at this
        simpa [hn] using this))
      refine ⟨0, q, fun j hj => ?_, fun y y' hy hy' => ?_⟩
      · cases j with
        | zero => exact absurd rfl hj
        | succ j => simp [he]
      · simp at hy hy'; subst hy hy'; exact hq
    · have he : t = t' := T.Same.ext h.1 (List.ext_getElem? (fun j => by
        by_cases hjl : j < t.chunks.length
        · have := hc j (by omega)
          rwa [List.getElem?_append_left hjl, List.getElem?_append_left (by omega)] at this
        · rw [List.getElem?_eq_none (by omega), List.getElem?_eq_none (by omega)]))
      obtain ⟨k, q, h1, h2⟩ := T.SameL.one h.2 (i - t.chunks.length) (fun j hj => by
        have := hc (t.chunks.length + j) (by omega)
        rw [List.getElem?_append_right (by omega), List.getElem?_append_right (by omega)] at this
        simpa [hn] using this)
      refine ⟨k + 1, q, fun j hj => ?_, fun y y' hy hy' => h2 y y' (by simpa using hy) (by simpa using hy')⟩
      cases j with
      | zero => simp [he]
      | succ j => simpa using h1 j (by omega)
end

theorem T.Same.one_node {t t' : T} (c : Cfg) (h : t.Same t') (i : Nat) (hc : ∀ j, j ≠ i → t.chunks[j]? = t'.chunks[j]?) :
    ∃ q : List Nat, ∀ p x', blockAt (t'.toNode c) p = some x' → p <+: q ∨ blockAt (t.toNode c) p = some x' := by
  obtain ⟨q, hq⟩ := h.one i hc
  refine ⟨q, fun p x' hp => ?_⟩
  rw [blockAt_toNode] at hp ⊢
  cases hs : t'.sub p with
  | none => rw [hs] at hp; cases hp
  | some y =>
    rw [hs] at hp
    rcases hq p y hs with h | h
    · exact .inl h
    · exact .inr (by rw [h]; exact hp)

/-! ### Balanced -/

namespace Balanced

theorem Full.same {m : Nat} : ∀ {d : Nat} {t t' : T}, Full m d t → Full m d t' → t.Same t'
  | 0, _, _, ⟨_, rfl⟩, ⟨_, rfl⟩ => by simp [T.Same]
  | d + 1, _, _, ⟨ts, rfl, hl, hf⟩, ⟨ts', rfl, hl', hf'⟩ => by
    simp only [T.Same]
    have : ∀ (ts ts' : List T), ts.length = ts'.length → (∀ t ∈ ts, Full m d t) → (∀ t ∈ ts', Full m d t) → T.SameL ts ts' := by
      intro ts
      induction ts with
      | nil => intro ts' h _ _; cases ts' <;> simp_all [T.SameL]
      | cons t ts ih =>
        intro ts' h h1 h2
        cases ts' with
        | nil => simp at h
        | cons t' ts' =>
          simp only [T.SameL]
          exact ⟨Full.same (h1 t (by simp)) (h2 t' (by simp)), ih ts' (by simpa using h) (fun x hx => h1 x (by simp [hx])) (fun x hx => h2 x (by simp [hx]))⟩
    exact this ts ts' (by rw [hl, hl']) hf hf'

theorem fulls_same {m d : Nat} : ∀ {ts ts' : List T}, ts.length = ts'.length → (∀ t ∈ ts, Full m d t) → (∀ t ∈ ts', Full m d t) → T.SameL ts ts'
  | [], [], _, _, _ => by simp [T.SameL]
  | [], _ :: _, h, _, _ => by simp at h
  | _ :: _, [], h, _, _ => by simp at h
  | t :: ts, t' :: ts', h, h1, h2 => by
    simp only [T.SameL]
    exact ⟨Full.same (h1 t (by simp)) (h2 t' (by simp)), fulls_same (by simpa using h) (fun x hx => h1 x (by simp [hx])) (fun x hx => h2 x (by simp [hx]))⟩

theorem Left.count {m : Nat} (hm : 0 < m) : ∀ {d : Nat} {t : T}, Left m d t → 0 < t.chunks.length ∧ t.chunks.length ≤ m ^ d
  | 0, _, ⟨c, h⟩ => by subst h; simp [T.chunks]
  | d + 1, _, ⟨pre, last, he, hl, hf, hll⟩ => by
    subst he
    obtain ⟨h1, h2⟩ := Left.count hm hll
    simp only [T.chunks, T.chunksL_append, T.chunksL, List.append_nil, List.length_append]
    rw [chunksL_length_full (fun t h => Full.count h) pre hf]
    refine ⟨by omega, ?_⟩
    calc pre.length * m ^ d + last.chunks.length ≤ pre.length * m ^ d + m ^ d := by omega
      _ = (pre.length + 1) * m ^ d := by ring
      _ ≤ m * m ^ d := Nat.mul_le_mul_right _ hl
      _ = m ^ (d + 1) := by ring

theorem Left.same {m : Nat} (hm : 0 < m) : ∀ {d : Nat} {t t' : T}, Left m d t → Left m d t' → t.chunks.length = t'.chunks.length → t.Same t'
  | 0, _, _, ⟨_, rfl⟩, ⟨_, rfl⟩, _ => by simp [T.Same]
  | d + 1, _, _, ⟨pre, last, rfl, hl, hf, hll⟩, ⟨pre', last', rfl, hl', hf', hll'⟩, hc => by
    obtain ⟨h1, h2⟩ := Left.count hm hll
    obtain ⟨h1', h2'⟩ := Left.count hm hll'
    simp only [T.chunks, T.chunksL_append, T.chunksL, List.append_nil, List.length_append] at hc
    rw [chunksL_length_full (fun t h => Full.count h) pre hf, chunksL_length_full (fun t h => Full.count h) pre' hf'] at hc
    have hlen : pre.length = pre'.length := by
      generalize m ^ d = q at *
      rcases Nat.lt_trichotomy pre.length pre'.length with h | h | h
      · have : (pre.length + 1) * q ≤ pre'.length * q := Nat.mul_le_mul_right _ h
        rw [Nat.add_mul] at this; omega
      · exact h
      · have : (pre'.length + 1) * q ≤ pre.length * q := Nat.mul_le_mul_right _ h
        rw [Nat.add_mul] at this; omega
    rw [hlen] at hc
    simp only [T.Same]
    refine (fulls_same hlen hf hf').append ?_
    simp only [T.SameL, and_true]
    exact Left.same hm hll hll' (by omega)

/-- The height is determined by the number of chunks. -/
theorem height_unique {m n d d' : Nat} (hm : 2 ≤ m) (h1 : n ≤ m ^ d) (h2 : d ≠ 0 → m ^ (d - 1) < n) (h1' : n ≤ m ^ d') (h2' : d' ≠ 0 → m ^ (d' - 1) < n) : d = d' := by
  have aux : ∀ {a b : Nat}, n ≤ m ^ a → (b ≠ 0 → m ^ (b - 1) < n) → b ≤ a := by
    intro a b ha hb
    by_contra h
    have h0 : b ≠ 0 := by omega
    have := hb h0
    have : m ^ a ≤ m ^ (b - 1) := Nat.pow_le_pow_right (by omega) (by omega)
    omega
  exact Nat.le_antisymm (aux h1' h2) (aux h1 h2')

end Balanced

/-! ### Trickle -/

namespace Trickle

/-- Depth bound of child `i` of a trickle tree, 0 for a leaf. -/
def kd (m i : Nat) : Nat := if i < m then 0 else (i - m) / depthRepeat + 1

/-- A full trickle tree of depth bound `D`. -/
inductive TF (m : Nat) : Nat → T → Prop
  | leaf (c : Bytes) : TF m 0 (.leaf c)
  | node (D : Nat) (ts : List T) (hl : ts.length = m + depthRepeat * D) (h : ∀ i t, ts[i]? = some t → TF m (kd m i) t) : TF m (D + 1) (.node ts)

/-- A trickle tree of depth bound `D`, filled from the left. -/
inductive TG (m : Nat) : Nat → T → Prop
  | leaf (c : Bytes) : TG m 0 (.leaf c)
  | node (D : Nat) (pre : List T) (last : T) (hl : pre.length < m + depthRepeat * D) (h : ∀ i t, pre[i]? = some t → TF m (kd m i) t)
      (hlast : TG m (kd m pre.length) last) : TG m (D + 1) (.node (pre ++ [last]))

/-- Children from index `i` on: all but the last are full, and the last too if there is more. -/
def LG (m : Nat) : Nat → List T → Prop → Prop
  | _, [], _ => True
  | i, [t], more => TG m (kd m i) t ∧ (more → TF m (kd m i) t)
  | i, t :: t' :: ts, more => TF m (kd m i) t ∧ LG m (i + 1) (t' :: ts) more

theorem TF.tg {m : Nat} (hm : 0 < m) {D : Nat} {t : T} (h : TF m D t) : TG m D t := by
  induction h with
  | leaf c => exact .leaf c
  | node D ts hl h ih =>
    have hne : ts ≠ [] := by intro h; subst h; simp at hl; omega
    obtain ⟨pre, last, rfl⟩ : ∃ pre last, ts = pre ++ [last] := ⟨ts.dropLast, ts.getLast hne, (List.dropLast_concat_getLast hne).symm⟩
    simp only [List.length_append, List.length_singleton] at hl
    refine .node D pre last (by omega) (fun i t hi => h i t ?_) (ih pre.length last (by simp))
    have : i < pre.length := by by_contra hc; rw [List.getElem?_eq_none (by omega)] at hi; cases hi
    rw [List.getElem?_append_left this]; exact hi

theorem LG.mono {m : Nat} : ∀ {ts : List T} {i : Nat} {a b : Prop}, LG m i ts a → (b → a) → LG m i ts b
  | [], _, _, _, _, _ => trivial
  | [_], _, _, _, h, hab => ⟨h.1, fun hb => h.2 (hab hb)⟩
  | _ :: _ :: _, _, _, _, h, hab => ⟨h.1, LG.mono h.2 hab⟩

theorem LG.append {m : Nat} (hm : 0 < m) : ∀ {ts1 ts2 : List T} {i : Nat} {m1 m2 : Prop}, LG m i ts1 m1 → LG m (i + ts1.length) ts2 m2 → (m1 ∨ ts2 = []) → (m2 → m1) → LG m i (ts1 ++ ts2) m2
  | [], ts2, i, m1, m2, _, h2, _, _ => by simpa using h2
  | [t], [], i, m1, m2, h1, _, _, h4 => ⟨h1.1, fun h => h1.2 (h4 h)⟩
  | [t], t2 :: ts2, i, m1, m2, h1, h2, h3, _ => ⟨h1.2 (h3.resolve_right (by simp)), h2⟩
  | t :: t' :: ts, ts2, i, m1, m2, h1, h2, h3, h4 => by
    refine ⟨h1.1, LG.append hm h1.2 ?_ h3 h4⟩
    simpa [Nat.add_assoc, Nat.add_comm 1] using h2

/-- All children, as a list with a last one. -/
theorem LG.last {m : Nat} : ∀ {ts : List T} {i : Nat} {more : Prop}, LG m i ts more → ts ≠ [] →
    ∃ pre last, ts = pre ++ [last] ∧ (∀ j t, pre[j]? = some t → TF m (kd m (i + j)) t) ∧ TG m (kd m (i + pre.length)) last ∧ (more → TF m (kd m (i + pre.length)) last)
  | [], _, _, _, h => absurd rfl h
  | [t], i, _, h, _ => ⟨[], t, rfl, by simp, h.1, h.2⟩
  | t :: t' :: ts, i, more, h, _ => by
    obtain ⟨pre, last, he, h1, h2, h3⟩ := LG.last h.2 (by simp)
    refine ⟨t :: pre, last, by rw [he]; rfl, ?_, ?_, ?_⟩
    · intro j x hj
      cases j with
      | zero => simp at hj; subst hj; exact h.1
      | succ j => have := h1 j x (by simpa using hj); rwa [show i + (j + 1) = i + 1 + j by omega]
    · rw [List.length_cons, show i + (pre.length + 1) = i + 1 + pre.length by omega]; exact h2
    · rw [List.length_cons, show i + (pre.length + 1) = i + 1 + pre.length by omega]; exact h3

theorem LG.tg {m D : Nat} {ts : List T} {more : Prop} (h : LG m 0 ts more) (hne : ts ≠ []) (hl : ts.length ≤ m + depthRepeat * D)
    (hf : more → ts.length = m + depthRepeat * D) : TG m (D + 1) (.node ts) ∧ (more → TF m (D + 1) (.node ts)) := by
  obtain ⟨pre, last, rfl, h1, h2, h3⟩ := h.last hne
  simp only [Nat.zero_add] at h1 h2 h3
  simp only [List.length_append, List.length_singleton] at hl
  refine ⟨.node D pre last (by omega) h1 h2, fun hm => .node D _ (hf hm) ?_⟩
  intro i t hi
  by_cases hlt : i < pre.length
  · rw [List.getElem?_append_left hlt] at hi; exact h1 i t hi
  · rw [List.getElem?_append_right (by omega)] at hi
    have h0 : i - pre.length = 0 := by
      by_contra hc
      rw [List.getElem?_eq_none (by simp; omega)] at hi; cases hi
    rw [h0] at hi
    simp at hi
    subst hi
    rw [show i = pre.length by omega]
    exact h3 hm

/-- Children with the same depth bound. -/
theorem lg_const {m d : Nat} : ∀ {ts : List T} {i : Nat} {more : Prop}, ListP (fun t more => TG m d t ∧ (more → TF m d t)) ts more →
    (∀ j < ts.length, kd m (i + j) = d) → LG m i ts more
  | [], _, _, _, _ => trivial
  | [t], i, _, h, hk => by
    have := hk 0 (by simp)
    rw [Nat.add_zero] at this
    simp only [LG, this]
    exact h
  | t :: t' :: ts, i, _, h, hk => by
    have := hk 0 (by simp)
    rw [Nat.add_zero] at this
    refine ⟨by rw [this]; exact h.1.2 trivial, lg_const h.2 (fun j hj => ?_)⟩
    rw [show i + 1 + j = i + (j + 1) by omega]
    exact hk (j + 1) (by simp at hj ⊢; omega)

theorem lg_leaves {m : Nat} : ∀ {ts : List T} {i : Nat} {more : Prop}, (∀ t ∈ ts, ∃ c, t = .leaf c) → i + ts.length ≤ m → LG m i ts more
  | [], _, _, _, _ => trivial
  | [t], i, _, h, hl => by
    obtain ⟨c, rfl⟩ := h t (by simp)
    have : kd m i = 0 := by unfold kd; rw [if_pos (by simp at hl; omega)]
    simp only [LG, this]
    exact ⟨.leaf c, fun _ => .leaf c⟩
  | t :: t' :: ts, i, _, h, hl => by
    obtain ⟨c, rfl⟩ := h t (by simp)
    have : kd m i = 0 := by unfold kd; rw [if_pos (by simp at hl; omega)]
    refine ⟨by rw [this]; exact .leaf c, lg_leaves (fun x hx => h x (by simp at hx ⊢; tauto)) (by simp at hl ⊢; omega)⟩

/-- A sub-graph builder of depth `i` fills from the left. -/
def SubF (m i : Nat) : Prop :=
  ∀ db : DB, db.maxlinks = m → db.Inv → db.More →
    ChildOK TRaw (fun t more => TG m i t ∧ (more → TF m i t)) db (wrapSub (subTrickle i) db)

/-- Result of the layers up to (not including) depth `d + 1`. -/
def LayF (m d : Nat) (ts : List T) (more : Prop) : Prop := LG m m ts more ∧ ts.length ≤ depthRepeat * d ∧ (more → ts.length = depthRepeat * d)

theorem repeatF {m i : Nat} (hsub : SubF m (i + 1)) (fsn : FSN) (db : DB) (hm : db.maxlinks = m) (hi : db.Inv) :
    GrowOK (fun ts more => LG m (m + depthRepeat * i) ts more ∧ ts.length ≤ depthRepeat ∧ (ts.length = depthRepeat ∨ ¬more))
      fsn db (repeatLoop (subTrickle (i + 1)) depthRepeat fsn db) := by
  rw [repeatLoop_eq]
  have h := fillLoop_spec TRaw (fun t more => TG m (i + 1) t ∧ (more → TF m (i + 1) t)) (wrapSub (subTrickle (i + 1))) (fun db => db.maxlinks = m)
    (fun h a => by rw [a.maxlinks, h]) (fun db h1 h2 h3 => hsub db h1 h2 h3) (fun t m hm h => ⟨h.1, fun _ => h.2 hm⟩) depthRepeat fsn db hm hi
  refine GrowOK.imp (fun ts mo h => ⟨lg_const h.2.2.2 (fun j hj => ?_), h.1, h.2.1⟩) (LoopOK.grow h)
  have := h.1
  unfold kd depthRepeat at *
  rw [if_neg (by omega)]
  omega

theorem layersFill (m : Nat) (hm0 : 0 < m) (d : Nat) (hsub : ∀ i, i < d → SubF m (i + 1)) (fsn : FSN) (db : DB)
    (hm : db.maxlinks = m) (hi : db.Inv) : GrowOK (LayF m d) fsn db (layers (d + 1) fsn db) := by
  induction d with
  | zero =>
    rw [fillTrickle_layers]
    simp only [layers, if_true]
    exact GrowOK.refl fsn db hi ⟨trivial, by simp, by simp⟩
  | succ d ih =>
    have ih := ih (fun i h => hsub i (by omega))
    rw [fillTrickle_layers]
    simp only [Nat.succ_ne_zero, if_false]
    refine GrowOK.bind (Q2 := fun ts more => LG m (m + depthRepeat * d) ts more ∧ ts.length ≤ depthRepeat ∧ (ts.length = depthRepeat ∨ ¬more)) ih
      (fun fsn' db' hr => ?_) (fun ts1 ts2 m1 m2 h1 h2 h3 h4 => ?_)
    · rw [hr] at ih
      obtain ⟨_, _, _, _, ha, _⟩ := ih
      have hm' : db'.maxlinks = m := by rw [ha.maxlinks, hm]
      refine GrowOK.of_done ha.inv ?_
      have hd1 := done_iff db' ha.inv
      have hd2 := done_adv db' ha.inv
      have hd3 := done_more db' ha.inv
      cases hdn : db'.done with
      | mk b db1 =>
        rw [hdn] at hd1 hd2 hd3
        cases b with
        | true =>
          exact GrowOK.refl fsn' db1 hd2.inv ⟨trivial, by simp, .inr (by rw [hd3]; exact hd1.mp rfl)⟩
        | false => exact repeatF (hsub d (by omega)) fsn' db1 (by rw [hd2.maxlinks, hm']) hd2.inv
    · obtain ⟨g1, g2, g3⟩ := h1
      obtain ⟨k1, k2, k3⟩ := h2
      refine ⟨LG.append hm0 g1 ?_ h3 h4, ?_, ?_⟩
      · rcases h3 with h | h
        · rw [g3 h]; exact k1
        · subst h; trivial
      · simp only [List.length_append]; unfold depthRepeat at *; omega
      · intro hmo
        have := g3 (h4 hmo)
        have := k3.resolve_right (not_not.mpr hmo)
        simp only [List.length_append]; unfold depthRepeat at *; omega

theorem subTrickleFill (m : Nat) (hm0 : 0 < m) (i : Nat) : SubF m (i + 1) := by
  induction i using Nat.strong_induction_on with
  | _ i ih =>
    intro db hm hi hmore
    have h1 := fillNodeLayer_spec (FSN.new db TFile) db hi (new_typ db TFile)
    rw [hm, new_numChildren] at h1
    have h := GrowOK.bind (f := fun fsn db => layers (i + 1) fsn db) (Q2 := LayF m i)
      (Q := fun ts more => ts ≠ [] ∧ LG m 0 ts more ∧ ts.length ≤ m + depthRepeat * i ∧ (more → ts.length = m + depthRepeat * i)) h1
      (fun fsn' db' hr => by
        rw [hr] at h1
        obtain ⟨_, _, _, _, ha, _⟩ := h1
        exact layersFill m hm0 i (fun j hj => ih j hj) fsn' db' (by rw [ha.maxlinks, hm]) ha.inv)
      (fun ts1 ts2 m1 m2 q1 q2 h3 h4 => by
        obtain ⟨c1, c2, c3, c4⟩ := q1
        obtain ⟨g1, g2, g3⟩ := q2
        have hfull : m1 → ts1.length = m := fun h => by have := c3.resolve_right (not_not.mpr h); omega
        refine ⟨by have := c4 hm0 hmore; simp [this], LG.append hm0 (lg_leaves (m := m) (more := m1) c1 (by omega)) ?_ h3 h4, ?_, ?_⟩
        · rcases h3 with h | h
          · rw [hfull h, Nat.zero_add]; exact g1
          · subst h; trivial
        · simp only [List.length_append]; omega
        · intro hmo
          have := g3 hmo
          have := hfull (h4 hmo)
          simp only [List.length_append]; omega)
    have htrk := subTrickle_spec m hm0 (i + 1) db hm hi hmore
    unfold wrapSub subTrickle fillTrickle
    cases hr1 : DB.fillNodeLayer (FSN.new db TFile) db with
    | error e => rw [hr1] at h; exact h
    | ok q =>
      obtain ⟨fsn1, db1⟩ := q
      rw [hr1] at h
      simp only at h ⊢
      cases hr2 : layers (i + 1) fsn1 db1 with
      | error e => rw [hr2] at h; exact h
      | ok q =>
        obtain ⟨fsn2, db2⟩ := q
        rw [hr2] at h
        obtain ⟨ts, cs, new, d, ha, hf, hc, -, ⟨hne, hg, hle, hfu⟩, hn, hr⟩ := h
        simp only [hf, finish_new]
        refine ⟨.node ts, cs, new, ha, rfl, rfl, by simp [T.chunks, hc], ?_, hg.tg hne hle hfu, ?_, ?_⟩
        · unfold wrapSub subTrickle fillTrickle at htrk
          rw [hr1] at htrk
          simp only [hr2, hf, finish_new] at htrk
          obtain ⟨_, cs', _, ha', _, _, _, hcs', _⟩ := htrk
          have := ha.pend
          rw [ha'.pend] at this
          rwa [List.append_cancel_right this] at hcs'
        · rw [hn]; simp [T.nodes]
        · rw [refs_append, hr]; simp [refs]

theorem growLoopFill (m : Nat) (hm0 : 0 < m) (fuel : Nat) : ∀ (i : Nat) (fsn : FSN) (db : DB) {fsn' : FSN} {db' : DB}, db.maxlinks = m → db.Inv →
    growLoop fuel (i + 1) fsn db = .ok (fsn', db') → GrowOK (fun ts more => ¬more ∧ LG m (m + depthRepeat * i) ts more) fsn db (.ok (fsn', db')) := by
  induction fuel with
  | zero =>
    intro i fsn db fsn' db' hm hi h
    unfold growLoop at h
    have hd1 := done_iff db hi
    have hd2 := done_adv db hi
    have hd3 := done_more db hi
    have hof := @GrowOK.of_done (fun ts more => ¬more ∧ LG m (m + depthRepeat * i) ts more) fsn db
    cases hdn : db.done with
    | mk b db1 =>
      rw [hdn] at hd1 hd2 hd3 hof h
      cases b with
      | true =>
        cases h
        exact hof hi (GrowOK.refl _ _ hd2.inv ⟨by rw [hd3]; exact hd1.mp rfl, trivial⟩)
      | false => cases h
  | succ fuel ih =>
    intro i fsn db fsn' db' hm hi h
    unfold growLoop at h
    have hd1 := done_iff db hi
    have hd2 := done_adv db hi
    have hd3 := done_more db hi
    have hof := @GrowOK.of_done (fun ts more => ¬more ∧ LG m (m + depthRepeat * i) ts more) fsn db
    cases hdn : db.done with
    | mk b db1 =>
      rw [hdn] at hd1 hd2 hd3 hof h
      cases b with
      | true =>
        cases h
        exact hof hi (GrowOK.refl _ _ hd2.inv ⟨by rw [hd3]; exact hd1.mp rfl, trivial⟩)
      | false =>
        simp only at h
        have hm1 : db1.maxlinks = m := by rw [hd2.maxlinks, hm]
        have hrep := repeatF (subTrickleFill m hm0 i) fsn db1 hm1 hd2.inv
        cases hr : repeatLoop (subTrickle (i + 1)) depthRepeat fsn db1 with
        | error e => rw [hr] at h; cases h
        | ok q =>
          obtain ⟨fsn2, db2⟩ := q
          rw [hr] at hrep h
          simp only at h
          have hrep' := hrep
          obtain ⟨_, _, _, _, ha, _⟩ := hrep
          have hm2 : db2.maxlinks = m := by rw [ha.maxlinks, hm1]
          have hg := ih (i + 1) fsn2 db2 hm2 ha.inv h
          refine hof hi ?_
          refine GrowOK.bind (r := .ok (fsn2, db2)) (f := fun _ _ => .ok (fsn', db')) hrep' (fun fsn' db' hr' => ?_) (fun ts1 ts2 m1 m2 q1 q2 h3 h4 => ?_)
            (Q2 := fun ts more => ¬more ∧ LG m (m + depthRepeat * (i + 1)) ts more)
          · cases hr'; exact hg
          · refine ⟨q2.1, LG.append hm0 q1.1 ?_ h3 h4⟩
            rcases h3 with h | h
            · rw [q1.2.2.resolve_right (not_not.mpr h), Nat.add_assoc, ← Nat.mul_succ]; exact q2.2
            · subst h; trivial

theorem layoutF (db0 : DB) (hi : db0.Inv) (hm0 : 0 < db0.maxlinks) (fuel : Nat) {root : Node} {db' : DB} (h : layout fuel db0 = .ok (root, db')) :
    ∃ ts, root = (T.node ts).toNode (db0.cfg TRaw) ∧ T.chunksL ts = db0.pend ∧ LG db0.maxlinks 0 ts False := by
  unfold layout at h
  have h1 := fillNodeLayer_spec (FSN.new db0 TFile) db0 hi (new_typ db0 TFile)
  rw [new_numChildren] at h1
  cases hr1 : DB.fillNodeLayer (FSN.new db0 TFile) db0 with
  | error e => rw [hr1] at h; cases h
  | ok q =>
    obtain ⟨fsn1, db1⟩ := q
    rw [hr1] at h1 h
    simp only at h
    have h1' := h1
    obtain ⟨ts1, cs1, new1, d1, ha1, hf1, hc1, -, hq1, hn1, hrf1⟩ := h1
    cases hr2 : growLoop fuel 1 fsn1 db1 with
    | error e => rw [hr2] at h; cases h
    | ok q =>
      obtain ⟨fsn2, db2⟩ := q
      have hg := growLoopFill db0.maxlinks hm0 fuel 0 fsn1 db1 ha1.maxlinks ha1.inv hr2
      rw [hr2] at h
      simp only at h
      have hb := GrowOK.bind (r := .ok (fsn1, db1)) (f := fun _ _ => .ok (fsn2, db2)) h1' (fun fsn' db' hr' => by cases hr'; exact hg)
        (Q2 := fun ts more => ¬more ∧ LG db0.maxlinks (db0.maxlinks + depthRepeat * 0) ts more)
        (Q := fun ts more => ¬more ∧ LG db0.maxlinks 0 ts more)
        (fun a b m1 m2 q1 q2 h3 h4 => ⟨q2.1, LG.append hm0 (lg_leaves (more := m1) q1.1 (by have := q1.2.1; omega)) (by
          rcases h3 with h | h
          · have := q1.2.2.1.resolve_right (not_not.mpr h)
            rw [this]; simpa using q2.2
          · subst h; trivial) h3 h4⟩)
      obtain ⟨ts, cs, new, d, ha, hf, hc, -, ⟨hnm, hlg⟩, hn, hrf⟩ := hb
      simp only [hf, finish_new] at h
      have hp : db2.pend = [] := by unfold DB.More at hnm; rw [not_not] at hnm; exact hnm.1
      have hcs : cs = db0.pend := by rw [ha.pend, hp]; simp
      refine ⟨ts, ?_, by rw [hc, hcs], hlg.mono False.elim⟩
      split at h
      · cases h
      · cases h; rfl

/-! The shape is determined by the number of chunks. -/

theorem TF.same {m D : Nat} {t : T} (h : TF m D t) : ∀ {t' : T}, TF m D t' → t.Same t' := by
  induction h with
  | leaf c => rintro _ ⟨⟩; simp [T.Same]
  | node D ts hl h ih =>
    intro t' h'
    cases h' with
    | node _ ts' hl' h' =>
      simp only [T.Same]
      have : ∀ (i : Nat) (a b : List T), a.length = b.length → (∀ j x, a[j]? = some x → ∀ y, TF m (kd m (i + j)) y → x.Same y) →
          (∀ j y, b[j]? = some y → TF m (kd m (i + j)) y) → T.SameL a b := by
        intro i a
        induction a generalizing i with
        | nil => intro b hb _ _; cases b <;> simp_all [T.SameL]
        | cons x a iha =>
          intro b hb h1 h2
          cases b with
          | nil => simp at hb
          | cons y b =>
            simp only [T.SameL]
            refine ⟨h1 0 x rfl y (h2 0 y rfl), iha (i + 1) b (by simpa using hb) (fun j z hz w hw => ?_) (fun j z hz => ?_)⟩
            · exact h1 (j + 1) z (by simpa using hz) w (by rwa [show i + (j + 1) = i + 1 + j by omega])
            · have := h2 (j + 1) z (by simpa using hz)
              rwa [show i + (j + 1) = i + 1 + j by omega] at this
      exact this 0 ts ts' (by rw [hl, hl']) (fun j x hx y hy => ih j x hx (by simpa using hy)) (fun j y hy => by simpa using h' j y hy)

theorem TG.pos {m D : Nat} {t : T} (h : TG m D t) : 0 < t.chunks.length := by
  induction h with
  | leaf c => simp [T.chunks]
  | node D pre last hl h hlast ih =>
    simp only [T.chunks, T.chunksL_append, T.chunksL, List.append_nil, List.length_append]
    omega

/-- A full tree has the most chunks. -/
theorem TG.le {m D : Nat} {t : T} (h : TG m D t) : ∀ {t' : T}, TF m D t' → t.chunks.length ≤ t'.chunks.length := by
  induction h with
  | leaf c => rintro _ ⟨⟩; simp [T.chunks]
  | node D pre last hl h hlast ih =>
    intro t' h'
    cases h' with
    | node _ ts' hl' h' =>
      simp only [T.chunks, T.chunksL_append, T.chunksL, List.append_nil, List.length_append]
      have : ∀ (i : Nat) (a b : List T), a.length < b.length → (∀ j x, a[j]? = some x → TF m (kd m (i + j)) x) →
          (∀ j y, b[j]? = some y → TF m (kd m (i + j)) y) → (∀ y, TF m (kd m (i + a.length)) y → last.chunks.length ≤ y.chunks.length) →
          (T.chunksL a).length + last.chunks.length ≤ (T.chunksL b).length := by
        intro i a
        induction a generalizing i with
        | nil =>
          intro b hb _ h2 h3
          cases b with
          | nil => simp at hb
          | cons y b =>
            have := h3 y (h2 0 y rfl)
            simp only [T.chunksL, List.length_append, List.length_nil]
            omega
        | cons x a iha =>
          intro b hb h1 h2 h3
          cases b with
          | nil => simp at hb
          | cons y b =>
            have e := (TF.same (h1 0 x rfl) (h2 0 y rfl)).count
            have := iha (i + 1) b (by simpa using hb) (fun j z hz => ?_) (fun j z hz => ?_) (fun z hz => ?_)
            · simp only [T.chunksL, List.length_append]; omega
            · have := h1 (j + 1) z (by simpa using hz)
              rwa [show i + (j + 1) = i + 1 + j by omega] at this
            · have := h2 (j + 1) z (by simpa using hz)
              rwa [show i + (j + 1) = i + 1 + j by omega] at this
            · exact h3 z (by rw [List.length_cons, show i + (a.length + 1) = i + 1 + a.length by omega]; exact hz)
      exact this 0 pre ts' (by omega) (fun j x hx => by simpa using h j x hx) (fun j y hy => by simpa using h' j y hy) (fun y hy => ih (by simpa using hy))

/-- Lists of children, full but for the last, with the same number of chunks. -/
theorem fills_same {m : Nat} {last last' : T} (hq : 0 < last.chunks.length) (hq' : 0 < last'.chunks.length) : ∀ (pre pre' : List T) (i : Nat),
    (∀ j x, pre[j]? = some x → TF m (kd m (i + j)) x) → (∀ j x, pre'[j]? = some x → TF m (kd m (i + j)) x) →
    (∀ y, TF m (kd m (i + pre.length)) y → last.chunks.length ≤ y.chunks.length) → (∀ y, TF m (kd m (i + pre'.length)) y → last'.chunks.length ≤ y.chunks.length) →
    (T.chunksL pre).length + last.chunks.length = (T.chunksL pre').length + last'.chunks.length →
    (pre.length = pre'.length → last.chunks.length = last'.chunks.length → last.Same last') → T.SameL (pre ++ [last]) (pre' ++ [last'])
  | [], [], i, _, _, _, _, hc, hs => by
    simp only [T.chunksL, List.length_nil] at hc
    simp only [List.nil_append, T.SameL, and_true]
    exact hs rfl (by omega)
  | [], y :: b, i, _, h2, h3, _, hc, _ => by
    have := h3 y (h2 0 y rfl)
    simp only [T.chunksL, List.length_append, List.length_nil] at hc
    omega
  | x :: a, [], i, h1, _, _, h4, hc, _ => by
    have := h4 x (h1 0 x rfl)
    simp only [T.chunksL, List.length_append, List.length_nil] at hc
    omega
  | x :: a, y :: b, i, h1, h2, h3, h4, hc, hs => by
    have e := TF.same (h1 0 x rfl) (h2 0 y rfl)
    have e' := e.count
    simp only [T.chunksL, List.length_append] at hc
    simp only [List.cons_append, T.SameL]
    refine ⟨e, fills_same (m := m) hq hq' a b (i + 1) (fun j z hz => ?_) (fun j z hz => ?_) (fun z hz => ?_) (fun z hz => ?_) (by omega) (fun hl => hs (by simp [hl]))⟩
    · have := h1 (j + 1) z (by simpa using hz)
      rwa [show i + (j + 1) = i + 1 + j by omega] at this
    · have := h2 (j + 1) z (by simpa using hz)
      rwa [show i + (j + 1) = i + 1 + j by omega] at this
    · exact h3 z (by rw [List.length_cons, show i + (a.length + 1) = i + 1 + a.length by omega]; exact hz)
    · exact h4 z (by rw [List.length_cons, show i + (b.length + 1) = i + 1 + b.length by omega]; exact hz)

theorem TG.same {m D : Nat} {t : T} (h : TG m D t) : ∀ {t' : T}, TG m D t' → t.chunks.length = t'.chunks.length → t.Same t' := by
  induction h with
  | leaf c => rintro _ ⟨⟩ _; simp [T.Same]
  | node D pre last hl h hlast ih =>
    intro t' h' hc
    cases h' with
    | node _ pre' last' hl' h' hlast' =>
      simp only [T.chunks, T.chunksL_append, T.chunksL, List.append_nil, List.length_append] at hc
      simp only [T.Same]
      refine fills_same hlast.pos hlast'.pos pre pre' 0 (fun j x hx => by simpa using h j x hx) (fun j x hx => by simpa using h' j x hx)
        (fun y hy => hlast.le (by simpa using hy)) (fun y hy => hlast'.le (by simpa using hy)) hc (fun hlen hcount => ih (by rw [hlen]; exact hlast') hcount)

theorem LG.same {m : Nat} {ts ts' : List T} {a b : Prop} (h : LG m 0 ts a) (h' : LG m 0 ts' b) (hc : (T.chunksL ts).length = (T.chunksL ts').length) : T.SameL ts ts' := by
  by_cases hne : ts = []
  · subst hne
    by_cases hne' : ts' = []
    · subst hne'; simp [T.SameL]
    · obtain ⟨pre, last, rfl, _, h2, _⟩ := h'.last hne'
      have := h2.pos
      simp only [T.chunksL_append, T.chunksL, List.append_nil, List.length_append, List.length_nil] at hc
      omega
  · obtain ⟨pre, last, rfl, h1, h2, _⟩ := h.last hne
    by_cases hne' : ts' = []
    · subst hne'
      have := h2.pos
      simp only [T.chunksL_append, T.chunksL, List.append_nil, List.length_append, List.length_nil] at hc
      omega
    · obtain ⟨pre', last', rfl, h1', h2', _⟩ := h'.last hne'
      simp only [T.chunksL_append, T.chunksL, List.append_nil, List.length_append] at hc
      exact fills_same h2.pos h2'.pos pre pre' 0 h1 h1' (fun y hy => h2.le hy) (fun y hy => h2'.le hy) hc
        (fun hlen hcount => h2.same (by rw [hlen]; exact h2') hcount)

end Trickle
end Unixfs.Import
