import Verif.Mod.DagLemmas
import Verif.Spec.Edit

/-! # `modifyDag` and `dagTruncate` on the level of blocks

The definitions in this file belong to proofs; they model no code.
-/

namespace Unixfs.Mod
open Unixfs Unixfs.Import Unixfs.Spec Unixfs.Import.Trickle

mutual
/-- Nothing happened. -/
theorem edited_refl {lo hi : Nat} : ∀ (o : Nat) (n : Node) (c : Bytes), SizesTrue n → content n = some c →
    (c.length = 0 ∨ o + c.length ≤ lo ∨ hi ≤ o) → Edited lo hi o n n
  | o, .raw d b, c, _, hc, h => by simp only [Edited]; rw [contentLen_of hc, if_pos h]; trivial
  | o, .other d, c, hs, _, _ => hs.elim
  | o, .proto d [] b, c, _, hc, h => by simp only [Edited]; rw [contentLen_of hc, if_pos h]; trivial
  | o, .proto d (l :: ls) b, c, hs, hc, h => by
    simp only [Edited]
    simp only [SizesTrue] at hs
    obtain ⟨m, _, _, _, _, _, hsl⟩ := hs
    simp only [content] at hc
    exact ⟨_, rfl, editedL_refl o (l :: ls) c hsl hc h⟩
theorem editedL_refl {lo hi : Nat} : ∀ (o : Nat) (ls : List Link) (c : Bytes), SizesTrueL ls → contentL ls = some c →
    (c.length = 0 ∨ o + c.length ≤ lo ∨ hi ≤ o) → EditedL lo hi o ls ls
  | _, [], _, _, _, _ => by simp [EditedL]
  | o, .mk nm sz n :: ls, c, hs, hc, h => by
    obtain ⟨a, ha⟩ := sizesTrue_content hs.1
    obtain ⟨b, hb⟩ := sizesTrueL_content hs.2
    simp only [contentL, ha, hb, Option.some.injEq] at hc
    subst hc
    rw [List.length_append] at h
    simp only [EditedL]
    refine ⟨n, ls, rfl, edited_refl o n a hs.1 ha (by omega), editedL_refl _ ls b hs.2 hb ?_⟩
    rw [contentLen_of ha]; omega
end

mutual
/-- A write to less is a write to more. -/
theorem edited_mono {lo lo' hi : Nat} (hlo : lo ≤ lo') : ∀ (o : Nat) (n n' : Node), SizesTrue n → (lo' ≤ o) → Edited lo' hi o n n' → Edited lo hi o n n'
  | o, .raw d b, n', _, _, h => by
    simp only [Edited] at h ⊢
    split at h
    · rw [if_pos (by omega)]; exact h
    · rw [if_neg (by omega)]; exact h
  | o, .other d, n', hs, _, _ => hs.elim
  | o, .proto d [] b, n', _, _, h => by
    simp only [Edited] at h ⊢
    split at h
    · rw [if_pos (by omega)]; exact h
    · rw [if_neg (by omega)]; exact h
  | o, .proto d (l :: ls) b, n', hs, hle, h => by
    simp only [Edited] at h ⊢
    simp only [SizesTrue] at hs
    obtain ⟨m, _, _, _, _, _, hsl⟩ := hs
    obtain ⟨ls', h1, h2⟩ := h
    exact ⟨ls', h1, editedL_mono hlo o (l :: ls) ls' hsl hle h2⟩
theorem editedL_mono {lo lo' hi : Nat} (hlo : lo ≤ lo') : ∀ (o : Nat) (ls ls' : List Link), SizesTrueL ls → (lo' ≤ o) → EditedL lo' hi o ls ls' → EditedL lo hi o ls ls'
  | _, [], _, _, _, h => by simpa [EditedL] using h
  | o, .mk nm sz n :: ls, ls', hs, hle, h => by
    simp only [EditedL] at h ⊢
    obtain ⟨n', ls'', h1, h2, h3⟩ := h
    exact ⟨n', ls'', h1, edited_mono hlo o n n' hs.1 hle h2, editedL_mono hlo _ ls ls'' hs.2 (by omega) h3⟩
end

mutual
theorem modifyDag_edit (env : Env) : ∀ (n : Node) (off : UInt64) (buf : Bytes) (svc : Svc) (c : Bytes) (s : Nat) (k x : Node) (rest : Bytes) (svc' : Svc),
    SizesTrue n → content n = some c → c.length < 2 ^ 64 → off.toNat < c.length → buf ≠ [] →
    modifyDag env n off buf svc = (.ok k, x, rest, svc') → Edited (s + off.toNat) (s + off.toNat + buf.length) s n k
  | .other _, _, _, _, _, _, _, _, _, _, hs, _, _, _, _, _ => hs.elim
  | .raw d b, off, buf, svc, c, s, k, x, rest, svc', hs, hc, hl, ho, hne, h => by
    have hM := modifyDag_spec env (.raw d b) off buf svc c hs hc hl (by omega)
    rw [h] at hM
    have hp := List.length_pos_iff.mpr hne
    simp only [Edited]
    rw [contentLen_of hc, if_neg (by omega)]
    refine ⟨by rw [contentLen_of hM.cont, contentLen_of hc, writeInto_length (by omega)], .inr ⟨d, k.dataBytes, b, rfl, ?_⟩⟩
    rw [modifyDag] at h
    split at h
    · cases h
    · dsimp only at h
      split at h <;> cases h
      rfl
  | .proto d [] b, off, buf, svc, c, s, k, x, rest, svc', hs, hc, hl, ho, hne, h => by
    have hM := modifyDag_spec env (.proto d [] b) off buf svc c hs hc hl (by omega)
    rw [h] at hM
    have hp := List.length_pos_iff.mpr hne
    simp only [Edited]
    rw [contentLen_of hc, if_neg (by omega)]
    refine ⟨by rw [contentLen_of hM.cont, contentLen_of hc, writeInto_length (by omega)], .inl ⟨d, k.dataBytes, b, rfl, ?_⟩⟩
    rw [modifyDag] at h
    split at h
    · cases h
    · split at h
      · cases h
      · dsimp only at h
        split at h
        · cases h
        · split at h <;> cases h
          rfl
  | .proto d (l :: ls) b, off, buf, svc, c, s, k, x, rest, svc', hs, hc, hl, ho, hne, h => by
    simp only [SizesTrue] at hs
    obtain ⟨m, hm, hf, hd, hb, hfs, hsl⟩ := hs
    simp only [content] at hc
    rw [modifyDag] at h
    simp only [FSNode.fromBytes, hm, FSNode.blockSizes, hb] at h
    simp only [Edited]
    split at h
    · cases h
    · next ls' buf' svc1 hL =>
      have hE := modifyLinks_edit env (l :: ls) 0 off buf svc c s ls' buf' svc1 hsl hc (by simpa using hl) (by simp) hne hL
      split at h <;> cases h
      exact ⟨ls', rfl, by simpa using hE⟩
theorem modifyLinks_edit (env : Env) : ∀ (ls : List Link) (cur off : UInt64) (buf : Bytes) (svc : Svc) (c : Bytes) (s : Nat) (ls' : List Link) (rest : Bytes) (svc' : Svc),
    SizesTrueL ls → contentL ls = some c → cur.toNat + c.length < 2 ^ 64 → cur.toNat ≤ off.toNat → buf ≠ [] →
    modifyLinks env (ls.map (fun l => UInt64.ofNat (contentLen l.target))) ls cur off buf svc = (none, ls', rest, svc') →
    EditedL (s + off.toNat) (s + off.toNat + buf.length) (s + cur.toNat) ls ls'
  | [], cur, off, buf, svc, c, s, ls', rest, svc', _, hc, hl, ho1, hne, h => by
    rw [List.map_nil, modifyLinks] at h
    cases h
    simp [EditedL]
  | .mk nm sz child :: ls, cur, off, buf, svc, c, s, ls', rest, svc', hs, hc, hl, ho1, hne, h => by
    obtain ⟨hs1, hs2⟩ := hs
    obtain ⟨a, ha⟩ := sizesTrue_content hs1
    obtain ⟨b, hb⟩ := sizesTrueL_content hs2
    simp only [contentL, ha, hb, Option.some.injEq] at hc
    subst hc
    rw [List.length_append] at hl
    rw [List.map_cons, modifyLinks] at h
    rw [show contentLen (Link.target (.mk nm sz child)) = a.length from contentLen_of ha] at h
    have hcur : (cur + UInt64.ofNat a.length).toNat = cur.toNat + a.length := uadd rfl (by omega)
    simp only [EditedL]
    rw [contentLen_of ha]
    by_cases hlt : cur + UInt64.ofNat a.length > off
    · rw [if_pos hlt] at h
      have hlt' : off.toNat < cur.toNat + a.length := by rw [← hcur]; exact UInt64.lt_iff_toNat_lt.mp hlt
      have hsub : (off - cur).toNat = off.toNat - cur.toNat := usub ho1
      split at h
      · cases h
      · next s1 _ =>
        have hM := modifyDag_spec env child (off - cur) buf s1 a hs1 ha (by omega) (by omega)
        split at h
        · cases h
        · next k n' buf1 s2 hk =>
          rw [hk] at hM
          have hE := modifyDag_edit env child (off - cur) buf s1 a (s + cur.toNat) k n' buf1 s2 hs1 ha (by omega) (by omega) hne hk
          rw [hsub, show s + cur.toNat + (off.toNat - cur.toNat) = s + off.toNat by omega] at hE
          have hrest : buf1.length = buf.length - (a.length - (off.toNat - cur.toNat)) := by
            rw [hM.rest, hsub]; simp [writeInto]
          split at h
          · next he =>
            cases h
            rw [List.isEmpty_iff] at he
            rw [he] at hrest
            simp only [List.length_nil] at hrest
            exact ⟨k, ls, rfl, hE, editedL_refl _ ls b hs2 hb (by omega)⟩
          · next he =>
            have hne1 : buf1 ≠ [] := by intro hh; simp [hh] at he
            have hp := List.length_pos_iff.mpr hne1
            split at h
            next r ls1 buf2 s3 hL =>
            cases h
            have hEL := modifyLinks_edit env ls (cur + UInt64.ofNat a.length) (cur + UInt64.ofNat a.length) buf1 s2 b s ls1 _ _ hs2 hb (by omega) (Nat.le_refl _) hne1 hL
            rw [hcur, show s + (cur.toNat + a.length) + buf1.length = s + off.toNat + buf.length by omega] at hEL
            refine ⟨k, ls1, rfl, hE, ?_⟩
            rw [show s + cur.toNat + a.length = s + (cur.toNat + a.length) by omega]
            exact editedL_mono (by omega) _ ls ls1 hs2 (Nat.le_refl _) hEL
    · rw [if_neg hlt] at h
      have hge : cur.toNat + a.length ≤ off.toNat := by
        rw [← hcur]; exact Nat.le_of_not_lt (fun h => hlt (UInt64.lt_iff_toNat_lt.mpr h))
      split at h
      next r ls1 buf2 s3 hL =>
      cases h
      have hEL := modifyLinks_edit env ls (cur + UInt64.ofNat a.length) off buf svc b s ls1 _ _ hs2 hb (by omega) (by omega) hne hL
      rw [hcur, show s + (cur.toNat + a.length) = s + cur.toNat + a.length by omega] at hEL
      exact ⟨child, ls1, rfl, edited_refl _ child a hs1 ha (by omega), hEL⟩
end

/-! ### `dagTruncate` -/

mutual
theorem leaves_sum : ∀ (n : Node) (c : Bytes), SizesTrue n → content n = some c → ((leaves n).map contentLen).sum = c.length
  | .other _, _, hs, _ => hs.elim
  | .raw d b, c, _, hc => by simp [leaves, contentLen_of hc]
  | .proto d [] b, c, _, hc => by simp [leaves, contentLen_of hc]
  | .proto d (l :: ls) b, c, hs, hc => by
    simp only [SizesTrue] at hs
    obtain ⟨m, _, _, _, _, _, hsl⟩ := hs
    simp only [content] at hc
    simp only [leaves]
    exact leavesL_sum (l :: ls) c hsl hc
theorem leavesL_sum : ∀ (ls : List Link) (c : Bytes), SizesTrueL ls → contentL ls = some c → ((leavesL ls).map contentLen).sum = c.length
  | [], c, _, hc => by simp only [contentL, Option.some.injEq] at hc; simp [leavesL, ← hc]
  | .mk nm sz n :: ls, c, hs, hc => by
    obtain ⟨a, ha⟩ := sizesTrue_content hs.1
    obtain ⟨b, hb⟩ := sizesTrueL_content hs.2
    simp only [contentL, ha, hb, Option.some.injEq] at hc
    subst hc
    simp [leavesL, leaves_sum n a hs.1 ha, leavesL_sum ls b hs.2 hb]
end

/-- `CutAt` for lists of leaves. -/
def CutL (size : Nat) (xs xs' : List Node) : Prop :=
  ∃ pre x post x', xs = pre ++ x :: post ∧ xs' = pre ++ [x'] ∧
    (pre.map contentLen).sum ≤ size ∧ size < (pre.map contentLen).sum + contentLen x ∧
    ∃ c, content x = some c ∧ content x' = some (c.take (size - (pre.map contentLen).sum))

theorem CutL.left {size : Nat} {xs xs' : List Node} (h : CutL size xs xs') (ys : List Node) : CutL size (xs ++ ys) xs' := by
  obtain ⟨pre, x, post, x', h1, h2, h3⟩ := h
  exact ⟨pre, x, post ++ ys, x', by simp [h1], h2, h3⟩

theorem CutL.right {size : Nat} {xs xs' : List Node} (ys : List Node) (hle : (ys.map contentLen).sum ≤ size)
    (h : CutL (size - (ys.map contentLen).sum) xs xs') : CutL size (ys ++ xs) (ys ++ xs') := by
  obtain ⟨pre, x, post, x', h1, h2, h3, h4, c, hc, hc'⟩ := h
  refine ⟨ys ++ pre, x, post, x', by simp [h1], by simp [h2], ?_, ?_, c, hc, ?_⟩
  · simp only [List.map_append, List.sum_append]; omega
  · simp only [List.map_append, List.sum_append]; omega
  · rw [hc']; simp only [List.map_append, List.sum_append]; congr 2; omega

theorem CutL.one {size : Nat} {n k : Node} {c : Bytes} (hc : content n = some c) (hk : content k = some (c.take size)) (h : size < c.length) :
    CutL size [n] [k] := ⟨[], n, [], k, rfl, rfl, by simp, by simp [contentLen_of hc, h], c, hc, by simpa using hk⟩

mutual
theorem dagTruncate_leaves (env : Env) : ∀ (n : Node) (size : UInt64) (svc : Svc) (c : Bytes) (k : Node) (svc' : Svc),
    SizesTrue n → content n = some c → c.length < 2 ^ 64 → size.toNat < c.length →
    dagTruncate env n size svc = (.ok k, svc') → CutL size.toNat (leaves n) (leaves k)
  | .other _, _, _, _, _, _, hs, _, _, _, _ => hs.elim
  | .raw d b, size, svc, c, k, svc', hs, hc, hl, ho, h => by
    have hT := dagTruncate_spec env (.raw d b) size svc c hs hc hl ho
    rw [h] at hT
    have hk : leaves k = [k] := by
      rw [dagTruncate] at h
      split at h <;> cases h
      simp [leaves]
    rw [hk]
    simp only [leaves]
    exact CutL.one hc hT.cont ho
  | .proto d [] b, size, svc, c, k, svc', hs, hc, hl, ho, h => by
    have hT := dagTruncate_spec env (.proto d [] b) size svc c hs hc hl ho
    rw [h] at hT
    have hk : leaves k = [k] := by
      rw [dagTruncate] at h
      split at h
      · cases h
      · split at h <;> cases h
        simp [leaves]
    rw [hk]
    simp only [leaves]
    exact CutL.one hc hT.cont ho
  | .proto d (l :: ls) b, size, svc, c, k, svc', hs, hc, hl, ho, h => by
    simp only [SizesTrue] at hs
    obtain ⟨m, hm, hf, hd, hb, hfs, hsl⟩ := hs
    simp only [content] at hc
    rw [dagTruncate] at h
    simp only [FSNode.fromBytes, hm] at h
    split at h
    · cases h
    · next fs' kept' k' s1 hL =>
      have hk := truncLinks_leaves env (l :: ls) 0 size (FSNode.removeAllBlockSizes ⟨m⟩) [] svc c fs' kept' k' s1 hsl hc (by simpa using hl)
        (by simp) (by simpa using ho) hL
      split at h
      · cases h
      · split at h
        · cases h
        · cases h
          rw [show leaves (.proto d (l :: ls) b) = leavesL (l :: ls) by simp only [leaves]]
          have : ∀ bytes, leaves (.proto bytes (kept' ++ [makeLink [] k']) b) = leavesL kept' ++ leaves k' := by
            intro bytes
            cases kept' with
            | nil => simp [leaves, leavesL, makeLink]
            | cons x kept' => simp only [List.cons_append, leaves]; rw [← List.cons_append, leavesL_append]; simp [leavesL, makeLink]
          rw [this]
          simp only [UInt64.toNat_zero, Nat.sub_zero, leavesL, List.nil_append] at hk
          obtain ⟨xs', h1, h2⟩ := hk
          rw [h1]; exact h2
theorem truncLinks_leaves (env : Env) : ∀ (ls : List Link) (cur size : UInt64) (fs : FSNode) (kept : List Link) (svc : Svc) (c : Bytes)
    (fs' : FSNode) (kept' : List Link) (k : Node) (svc' : Svc),
    SizesTrueL ls → contentL ls = some c → cur.toNat + c.length < 2 ^ 64 → cur.toNat ≤ size.toNat →
    size.toNat < cur.toNat + c.length → truncLinks env ls cur size fs kept svc = (.ok (fs', kept', k), svc') →
    ∃ xs', leavesL kept' ++ leaves k = leavesL kept ++ xs' ∧ CutL (size.toNat - cur.toNat) (leavesL ls) xs'
  | [], cur, size, fs, kept, svc, c, _, _, _, _, _, hc, _, ho1, ho2, _ => by
    simp only [contentL, Option.some.injEq] at hc
    subst hc
    simp at ho2; omega
  | .mk nm sz child :: ls, cur, size, fs, kept, svc, c, fs', kept', k, svc', hs, hc, hl, ho1, ho2, h => by
    obtain ⟨hs1, hs2⟩ := hs
    obtain ⟨a, ha⟩ := sizesTrue_content hs1
    obtain ⟨b, hb⟩ := sizesTrueL_content hs2
    simp only [contentL, ha, hb, Option.some.injEq] at hc
    subst hc
    rw [List.length_append] at hl ho2
    rw [truncLinks] at h
    split at h
    · cases h
    · next s1 _ =>
      simp only [fileSize_true hs1 ha] at h
      have hcur : (cur + UInt64.ofNat a.length).toNat = cur.toNat + a.length := uadd rfl (by omega)
      by_cases hlt : size < cur + UInt64.ofNat a.length
      · rw [if_pos hlt] at h
        have hlt' : size.toNat < cur.toNat + a.length := by rw [← hcur]; exact UInt64.lt_iff_toNat_lt.mp hlt
        have hsub : (size - cur).toNat = size.toNat - cur.toNat := usub ho1
        split at h
        · cases h
        · next nchild s2 hT =>
          cases h
          have := dagTruncate_leaves env child (size - cur) s1 a _ _ hs1 ha (by omega) (by omega) hT
          rw [hsub] at this
          exact ⟨leaves k, rfl, by simp only [leavesL]; exact this.left _⟩
      · rw [if_neg hlt] at h
        have hge : cur.toNat + a.length ≤ size.toNat := by
          rw [← hcur]; exact Nat.le_of_not_lt (fun h => hlt (UInt64.lt_iff_toNat_lt.mpr h))
        obtain ⟨xs', h1, h2⟩ := truncLinks_leaves env ls (cur + UInt64.ofNat a.length) size _ _ s1 b fs' kept' k svc' hs2 hb (by omega) (by omega) (by omega) h
        have hsum := leaves_sum child a hs1 ha
        refine ⟨leaves child ++ xs', ?_, ?_⟩
        · rw [h1, leavesL_append]; simp [leavesL]
        · simp only [leavesL]
          refine CutL.right _ (by omega) ?_
          rw [hsum, show size.toNat - cur.toNat - a.length = size.toNat - (cur + UInt64.ofNat a.length).toNat by omega]
          exact h2
end

end Unixfs.Mod
