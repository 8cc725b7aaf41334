import Verif.Import.Fill

/-! # Trees of a list of chunks and of a longer one (C81)

The definitions in this file belong to proofs; they model no code.
-/

namespace Unixfs.Import
open Unixfs Unixfs.Spec

theorem prefix_of_app {a b c d : List Bytes} (h : (a ++ b) <+: (c ++ d)) (hl : a.length = c.length) : a = c ∧ b <+: d := by
  obtain ⟨e, he⟩ := h
  rw [List.append_assoc] at he
  obtain ⟨h1, h2⟩ := List.append_inj he hl
  exact ⟨h1, ⟨e, h2⟩⟩

theorem blockAt_append : ∀ (p q : List Nat) (n : Node), blockAt n (p ++ q) = (blockAt n p).bind (blockAt · q)
  | [], _, _ => by simp [blockAt]
  | i :: p, q, n => by
    simp only [List.cons_append, blockAt]
    cases n.links[i]? with
    | none => rfl
    | some l => exact blockAt_append p q l.target

/-- Children of two left-filled nodes, one with the chunks of the other and more. -/
theorem grow_list {P Q : Nat → T → Prop} (hP : ∀ i x y, P i x → P i y → x.Same y)
    (hQ : ∀ i x y, Q i x → P i y → x.chunks.length ≤ y.chunks.length) (hpos : ∀ i x, Q i x → 0 < x.chunks.length)
    (hPQ : ∀ i x, P i x → Q i x) : ∀ (pre pre' : List T) (last last' : T) (i : Nat),
    (∀ j t, pre[j]? = some t → P (i + j) t) → (∀ j t, pre'[j]? = some t → P (i + j) t) → Q (i + pre.length) last → Q (i + pre'.length) last' →
    T.chunksL (pre ++ [last]) <+: T.chunksL (pre' ++ [last']) →
    (∀ j, j < pre.length → (pre ++ [last])[j]? = (pre' ++ [last'])[j]?) ∧
      ∃ y, (pre' ++ [last'])[pre.length]? = some y ∧ Q (i + pre.length) y ∧ last.chunks <+: y.chunks
  | [], [], last, last', i, _, _, _, h', hc => by
    simp only [List.nil_append, T.chunksL, List.append_nil] at hc
    exact ⟨fun j hj => by simp at hj, last', rfl, h', hc⟩
  | [], t' :: pre', last, last', i, _, h2, h, _, hc => by
    simp only [List.nil_append, List.cons_append, T.chunksL, List.append_nil] at hc
    have ht : P i t' := h2 0 t' rfl
    refine ⟨fun j hj => by simp at hj, t', rfl, hPQ _ _ ht, ?_⟩
    exact List.prefix_of_prefix_length_le hc (List.prefix_append _ _) (hQ i _ _ h ht)
  | t :: pre, [], last, last', i, h1, _, h, h', hc => by
    exfalso
    simp only [List.nil_append, List.cons_append, T.chunksL, List.append_nil, T.chunksL_append] at hc
    have := hc.length_le
    simp only [List.length_append] at this
    have a := hQ i _ _ h' (h1 0 t rfl)
    have b := hpos _ _ h
    omega
  | t :: pre, t' :: pre', last, last', i, h1, h2, h, h', hc => by
    have hs := hP i _ _ (h1 0 t rfl) (h2 0 t' rfl)
    simp only [List.cons_append, T.chunksL] at hc
    obtain ⟨e, hc2⟩ := prefix_of_app hc hs.count
    have e := hs.ext e
    subst e
    have := grow_list hP hQ hpos hPQ pre pre' last last' (i + 1)
      (fun j x hj => by have := h1 (j + 1) x (by simpa using hj); rwa [Nat.add_comm j 1, ← Nat.add_assoc] at this)
      (fun j x hj => by have := h2 (j + 1) x (by simpa using hj); rwa [Nat.add_comm j 1, ← Nat.add_assoc] at this)
      (by rwa [List.length_cons, Nat.add_comm _ 1, ← Nat.add_assoc] at h)
      (by rwa [List.length_cons, Nat.add_comm _ 1, ← Nat.add_assoc] at h') hc2
    obtain ⟨g1, y, g2, g3, g4⟩ := this
    refine ⟨fun j hj => ?_, y, by simpa using g2, ?_, g4⟩
    · cases j with
      | zero => rfl
      | succ j => simpa using g1 j (by simpa using hj)
    · rwa [List.length_cons, Nat.add_comm _ 1, ← Nat.add_assoc]

/-- Every sub-tree of `t` is at the same place of `t'`, except those along one path. -/
def T.Kept (t t' : T) : Prop := ∃ q : List Nat, ∀ p x, t.sub p = some x → p <+: q ∨ t'.sub p = some x

theorem T.Kept.leaf (c : Bytes) (t' : T) : T.Kept (.leaf c) t' := ⟨[], fun p x h => by
  cases p with
  | nil => exact .inl (List.prefix_refl _)
  | cons a p => cases h⟩

theorem T.Kept.step {pre : List T} {last : T} {ts' : List T} {y : T} (h : ∀ j, j < pre.length → (pre ++ [last])[j]? = ts'[j]?)
    (hy : ts'[pre.length]? = some y) (hk : T.Kept last y) : T.Kept (.node (pre ++ [last])) (.node ts') := by
  obtain ⟨q, hq⟩ := hk
  refine ⟨pre.length :: q, fun p x hp => ?_⟩
  cases p with
  | nil => exact .inl List.nil_prefix
  | cons a p =>
    simp only [T.sub] at hp ⊢
    rcases Nat.lt_trichotomy a pre.length with ha | ha | ha
    · rw [h a ha] at hp
      exact .inr hp
    · subst ha
      rw [hy]
      simp only [List.getElem?_concat_length] at hp
      rcases hq p x hp with hx | hx
      · exact .inl (by simpa using hx)
      · exact .inr hx
    · rw [List.getElem?_eq_none (by simp; omega)] at hp
      cases hp

theorem T.Kept.node {t t' : T} (c : Cfg) (h : T.Kept t t') :
    ∃ q : List Nat, ∀ p x, blockAt (t.toNode c) p = some x → p <+: q ∨ blockAt (t'.toNode c) p = some x := by
  obtain ⟨q, hq⟩ := h
  refine ⟨q, fun p x hp => ?_⟩
  rw [blockAt_toNode] at hp ⊢
  cases hs : t.sub p with
  | none => rw [hs] at hp; cases hp
  | some y =>
    rw [hs] at hp
    rcases hq p y hs with h | h
    · exact .inl h
    · exact .inr (by rw [h]; exact hp)

namespace Balanced

theorem Left.le_full {m d : Nat} (hm : 0 < m) {x y : T} (h : Left m d x) (h' : Full m d y) : x.chunks.length ≤ y.chunks.length := by
  rw [Full.count h']; exact (Left.count hm h).2

theorem Left.kept {m : Nat} (hm : 0 < m) : ∀ {d : Nat} {t t' : T}, Left m d t → Left m d t' → t.chunks <+: t'.chunks → T.Kept t t'
  | 0, _, _, ⟨_, rfl⟩, _, _ => T.Kept.leaf _ _
  | d + 1, _, _, ⟨pre, last, rfl, hl, hf, hll⟩, ⟨pre', last', rfl, hl', hf', hll'⟩, hc => by
    simp only [T.chunks] at hc
    obtain ⟨h1, y, h2, h3, h4⟩ := grow_list (P := fun _ => Full m d) (Q := fun _ => Left m d) (fun _ _ _ => Full.same)
      (fun _ _ _ => Left.le_full hm) (fun _ _ h => (Left.count hm h).1) (fun _ _ => Full.left hm) pre pre' last last' 0
      (fun j t ht => hf t (List.mem_of_getElem? ht)) (fun j t ht => hf' t (List.mem_of_getElem? ht)) hll hll' hc
    exact T.Kept.step h1 h2 (Left.kept hm hll h3 h4)

/-- The first sub-tree `e` levels down. -/
theorem Left.first {m : Nat} (hm : 0 < m) {d : Nat} {t : T} (h : Left m d t) : ∀ (e : Nat) {t' : T}, Left m (d + e) t' → t.chunks <+: t'.chunks →
    ∃ y, t'.sub (List.replicate e 0) = some y ∧ Left m d y ∧ t.chunks <+: y.chunks
  | 0, t', h', hc => ⟨t', by cases t' <;> rfl, h', hc⟩
  | e + 1, _, ⟨pre, last, rfl, hl, hf, hll⟩, hc => by
    have key : ∃ z, (pre ++ [last])[0]? = some z ∧ Left m (d + e) z ∧ t.chunks <+: z.chunks := by
      cases pre with
      | nil => exact ⟨last, rfl, hll, by simpa [T.chunks, T.chunksL] using hc⟩
      | cons z pre =>
        have hz : Full m (d + e) z := hf z (by simp)
        refine ⟨z, rfl, Full.left hm hz, ?_⟩
        simp only [List.cons_append, T.chunks, T.chunksL] at hc
        refine List.prefix_of_prefix_length_le hc (List.prefix_append _ _) ?_
        rw [Full.count hz]
        exact (Left.count hm h).2.trans (Nat.pow_le_pow_right hm (by omega))
    obtain ⟨z, hz, hz2, hz3⟩ := key
    obtain ⟨y, hy, hy2, hy3⟩ := Left.first hm h e hz2 hz3
    exact ⟨y, by simp only [List.replicate_succ, T.sub, hz]; exact hy, hy2, hy3⟩

end Balanced

namespace Trickle

theorem TG.kept {m : Nat} (hm : 0 < m) {D : Nat} {t : T} (h : TG m D t) : ∀ {t' : T}, TG m D t' → t.chunks <+: t'.chunks → T.Kept t t' := by
  induction h with
  | leaf c => intro t' _ _; exact T.Kept.leaf _ _
  | node D pre last hl hf hll ih =>
    intro t' h' hc
    cases h' with
    | node _ pre' last' hl' hf' hll' =>
      simp only [T.chunks] at hc
      obtain ⟨h1, y, h2, h3, h4⟩ := grow_list (P := fun i => TF m (kd m i)) (Q := fun i => TG m (kd m i)) (fun _ _ _ h h' => TF.same h h')
        (fun _ _ _ h h' => TG.le h h') (fun _ _ h => TG.pos h) (fun _ _ => TF.tg hm) pre pre' last last' 0
        (fun j t ht => by simpa using hf j t ht) (fun j t ht => by simpa using hf' j t ht) (by simpa using hll) (by simpa using hll') hc
      exact T.Kept.step h1 h2 (ih (by simpa using h3) h4)

theorem LG.kept {m : Nat} (hm : 0 < m) {ts ts' : List T} {a b : Prop} (h : LG m 0 ts a) (h' : LG m 0 ts' b) (hc : T.chunksL ts <+: T.chunksL ts') :
    T.Kept (.node ts) (.node ts') := by
  by_cases h0 : ts = []
  · subst h0
    exact ⟨[], fun p x hp => by
      cases p with
      | nil => exact .inl (List.prefix_refl _)
      | cons i p => simp [T.sub] at hp⟩
  · obtain ⟨pre, last, rfl, hf, hll, _⟩ := LG.last h h0
    have h0' : ts' ≠ [] := by
      rintro rfl
      have := TG.pos hll
      have := hc.length_le
      simp only [T.chunksL_append, T.chunksL, List.append_nil, List.length_append, List.length_nil] at this
      omega
    obtain ⟨pre', last', rfl, hf', hll', _⟩ := LG.last h' h0'
    obtain ⟨h1, y, h2, h3, h4⟩ := grow_list (P := fun i => TF m (kd m i)) (Q := fun i => TG m (kd m i)) (fun _ _ _ h h' => TF.same h h')
        (fun _ _ _ h h' => TG.le h h') (fun _ _ h => TG.pos h) (fun _ _ => TF.tg hm) pre pre' last last' 0 hf hf' hll hll' hc
    exact T.Kept.step h1 h2 (TG.kept hm hll h3 h4)

end Trickle
end Unixfs.Import
