import Verif.Mod.Recut

/-!
# `dagTruncate` on the trees that the importers build

Helper lemmas for C101. `T.Cut t t'`: the tree `t`, cut inside one chunk, everything behind it dropped.

The definitions in this file belong to proofs; they model no code.
-/

namespace Unixfs.Import
open Unixfs.Spec

/-- A tree cut inside one chunk. -/
inductive T.Cut : T → T → Prop
  | leaf (d : Bytes) (n : Nat) : T.Cut (.leaf d) (.leaf (d.take n))
  | node (pre : List T) (t t' : T) (post : List T) (h : T.Cut t t') : T.Cut (.node (pre ++ t :: post)) (.node (pre ++ [t']))

theorem T.Cut.chunks {t t' : T} (h : t.Cut t') : ∃ pre x post n, t.chunks = pre ++ x :: post ∧ t'.chunks = pre ++ [x.take n] := by
  induction h with
  | leaf d n => exact ⟨[], d, [], n, rfl, rfl⟩
  | node pre t t' post _ ih =>
    obtain ⟨p, x, q, n, h1, h2⟩ := ih
    refine ⟨T.chunksL pre ++ p, x, q ++ T.chunksL post, n, ?_, ?_⟩
    · simp only [T.chunks, T.chunksL_append, T.chunksL, h1]; simp
    · simp only [T.chunks, T.chunksL_append, T.chunksL, h2]; simp

theorem T.SameL.split : ∀ {a b c : List T}, T.SameL (a ++ b) c → ∃ a' b', c = a' ++ b' ∧ T.SameL a a' ∧ T.SameL b b'
  | [], b, c, h => ⟨[], c, rfl, .refl _, h⟩
  | x :: a, b, [], h => by simp [T.SameL] at h
  | x :: a, b, y :: c, h => by
    simp only [List.cons_append, T.SameL] at h
    obtain ⟨a', b', h1, h2, h3⟩ := T.SameL.split h.2
    exact ⟨y :: a', b', by rw [h1]; rfl, by simp only [T.SameL]; exact ⟨h.1, h2⟩, h3⟩

theorem T.SameL.length : ∀ {a b : List T}, T.SameL a b → a.length = b.length
  | [], [], _ => rfl
  | [], _ :: _, h => by simp [T.SameL] at h
  | _ :: _, [], h => by simp [T.SameL] at h
  | x :: a, y :: b, h => by
    simp only [T.SameL] at h
    simp [T.SameL.length h.2]

theorem T.SameL.at {a b : List T} (h : T.SameL a b) {i : Nat} {y : T} (hy : b[i]? = some y) : ∃ x, a[i]? = some x ∧ x.Same y := by
  rcases h.get i with ⟨_, h2⟩ | ⟨x, x', h1, h2, h3, _⟩
  · rw [h2] at hy; cases hy
  · rw [h2] at hy; cases hy; exact ⟨x, h1, h3⟩

/-- A node with a last child, of the same shape. -/
theorem T.Same.last {pre : List T} {last t' : T} (h : (T.node (pre ++ [last])).Same t') :
    ∃ pre' last', t' = .node (pre' ++ [last']) ∧ T.SameL pre pre' ∧ last.Same last' := by
  cases t' with
  | leaf d => simp [T.Same] at h
  | node ts =>
    simp only [T.Same] at h
    obtain ⟨a, b, h1, h2, h3⟩ := h.split
    cases b with
    | nil => simp [T.SameL] at h3
    | cons y b =>
      cases b with
      | nil => simp only [T.SameL, and_true] at h3; exact ⟨a, y, by rw [h1], h2, h3⟩
      | cons z b => simp [T.SameL] at h3

namespace Balanced

theorem Full.of_same {m : Nat} : ∀ {d : Nat} {t t' : T}, t.Same t' → Full m d t → Full m d t'
  | 0, t, t', h, hf => by
    obtain ⟨c, rfl⟩ := hf
    cases t' with
    | leaf d => exact ⟨d, rfl⟩
    | node ts => simp [T.Same] at h
  | d + 1, t, t', h, hg => by
    obtain ⟨ts, rfl, hl, hf⟩ := hg
    cases t' with
    | leaf d => simp [T.Same] at h
    | node ts' =>
      simp only [T.Same] at h
      refine ⟨ts', rfl, by rw [← h.length, hl], fun y hy => ?_⟩
      obtain ⟨i, hi⟩ := List.getElem?_of_mem hy
      obtain ⟨x, hx, hs⟩ := h.at hi
      exact Full.of_same hs (hf x (List.mem_of_getElem? hx))

theorem Left.of_same {m : Nat} : ∀ {d : Nat} {t t' : T}, t.Same t' → Left m d t → Left m d t'
  | 0, t, t', h, hf => by
    obtain ⟨c, rfl⟩ := hf
    cases t' with
    | leaf d => exact ⟨d, rfl⟩
    | node ts => simp [T.Same] at h
  | d + 1, t, t', h, hg => by
    obtain ⟨pre, last, rfl, hl, hf, hll⟩ := hg
    obtain ⟨pre', last', rfl, h1, h2⟩ := h.last
    refine ⟨pre', last', rfl, by rw [← h1.length]; exact hl, fun y hy => ?_, Left.of_same h2 hll⟩
    obtain ⟨i, hi⟩ := List.getElem?_of_mem hy
    obtain ⟨x, hx, hs⟩ := h1.at hi
    exact Full.of_same hs (hf x (List.mem_of_getElem? hx))

/-- A left-filled tree that is cut is left-filled. -/
theorem Left.cut {m : Nat} (hm : 0 < m) : ∀ {d : Nat} {t t' : T}, Left m d t → t.Cut t' → Left m d t'
  | 0, _, _, ⟨_, rfl⟩, .leaf d n => ⟨_, rfl⟩
  | d + 1, _, _, ⟨pre, last, he, hl, hf, hll⟩, h => by
    cases h with
    | leaf => cases he
    | node p t t' post h =>
      simp only [T.node.injEq] at he
      have key : (∀ x ∈ p, Full m d x) ∧ p.length < m ∧ Left m d t := by
        rcases List.append_eq_append_iff.mp he with ⟨a, h1, h2⟩ | ⟨a, h1, h2⟩
        · cases a with
          | nil =>
            simp only [List.nil_append, List.cons.injEq] at h2
            simp only [List.append_nil] at h1
            subst h1
            rw [h2.1]
            exact ⟨hf, hl, hll⟩
          | cons y a =>
            simp only [List.cons_append, List.cons.injEq] at h2
            subst h1
            refine ⟨fun x hx => hf x (by simp [hx]), by simp at hl; omega, ?_⟩
            rw [h2.1]
            exact Full.left hm (hf y (by simp))
        · cases a with
          | nil =>
            simp only [List.nil_append, List.cons.injEq] at h2
            simp only [List.append_nil] at h1
            subst h1
            rw [← h2.1]
            exact ⟨hf, hl, hll⟩
          | cons y a => simp at h2
      exact ⟨p, t', rfl, key.2.1, key.1, Left.cut hm key.2.2 h⟩

end Balanced

namespace Trickle

theorem TF.of_same {m D : Nat} {t : T} (h : TF m D t) : ∀ {t' : T}, t.Same t' → TF m D t' := by
  induction h with
  | leaf c =>
    intro t' h
    cases t' with
    | leaf d => exact .leaf d
    | node ts => simp [T.Same] at h
  | node D ts hl h ih =>
    intro t' hs
    cases t' with
    | leaf d => simp [T.Same] at hs
    | node ts' =>
      simp only [T.Same] at hs
      refine .node D ts' (by rw [← hs.length, hl]) (fun i y hy => ?_)
      obtain ⟨x, hx, hxy⟩ := hs.at hy
      exact ih i x hx hxy

theorem TG.of_same {m D : Nat} {t : T} (h : TG m D t) : ∀ {t' : T}, t.Same t' → TG m D t' := by
  induction h with
  | leaf c =>
    intro t' h
    cases t' with
    | leaf d => exact .leaf d
    | node ts => simp [T.Same] at h
  | node D pre last hl h hlast ih =>
    intro t' hs
    obtain ⟨pre', last', rfl, h1, h2⟩ := hs.last
    refine .node D pre' last' (by rw [← h1.length]; exact hl) (fun i y hy => ?_) (by rw [← h1.length]; exact ih h2)
    obtain ⟨x, hx, hxy⟩ := h1.at hy
    exact (h i x hx).of_same hxy

/-- A left-filled trickle tree that is cut is left-filled. -/
theorem TG.cut {m : Nat} (hm : 0 < m) {t t' : T} (h : t.Cut t') : ∀ {D : Nat}, TG m D t → TG m D t' := by
  induction h with
  | leaf d n =>
    intro D hg
    cases hg
    exact .leaf _
  | node p t t' post h ih =>
    intro D hg
    generalize ht : T.node (p ++ t :: post) = T0 at hg
    cases hg with
    | leaf => cases ht
    | node D pre last hl hf hlast =>
      simp only [T.node.injEq] at ht
      have key : (∀ i x, p[i]? = some x → TF m (kd m i) x) ∧ p.length < m + depthRepeat * D ∧ TG m (kd m p.length) t := by
        rcases List.append_eq_append_iff.mp ht with ⟨a, h1, h2⟩ | ⟨a, h1, h2⟩
        · cases a with
          | nil =>
            simp only [List.nil_append, List.cons.injEq] at h2
            simp only [List.append_nil] at h1
            subst h1
            rw [h2.1]
            exact ⟨hf, hl, hlast⟩
          | cons y a =>
            simp only [List.cons_append, List.cons.injEq] at h2
            subst h1
            refine ⟨fun i x hx => hf i x ?_, by simp at hl; omega, ?_⟩
            · rw [List.getElem?_append_left (by by_contra hc; rw [List.getElem?_eq_none (by omega)] at hx; cases hx)]
              exact hx
            · rw [h2.1]
              exact TF.tg hm (hf p.length y (by simp))
        · cases a with
          | nil =>
            simp only [List.nil_append, List.cons.injEq] at h2
            simp only [List.append_nil] at h1
            subst h1
            rw [← h2.1]
            exact ⟨hf, hl, hlast⟩
          | cons y a => simp at h2
      exact .node D p t' key.2.1 key.1 (ih key.2.2)

/-- The root of a trickle import, with a depth bound as large as wanted. -/
theorem LG.root {m D : Nat} {ts : List T} (h : LG m 0 ts False) (hne : ts ≠ []) (hD : ts.length ≤ D) : TG m (D + 1) (.node ts) :=
  (h.tg hne (D := D) (by unfold depthRepeat; omega) False.elim).1

end Trickle
end Unixfs.Import

namespace Unixfs.Mod
open Unixfs Unixfs.Import Unixfs.Spec

/-- Careful calls inside the file keep its length. -/
theorem inside_length : ∀ (ops : List MOp) (y : File) (tr : Track), CarefulRun False y tr ops → (∀ op ∈ ops, ∀ s, op ≠ .truncate s) →
    (y.after ops).data.length = y.data.length
  | [], y, tr, _, _ => rfl
  | op :: ops, y, tr, h, hT => by
    obtain ⟨h1, h2⟩ := h
    show ((y.next op).after ops).data.length = _
    rw [inside_length ops _ _ h2 (fun o ho => hT o (by simp [ho]))]
    cases op with
    | write b =>
      obtain ⟨_, _, h⟩ := h1
      have h := h.resolve_left id
      simp only [File.next, overlay_length]; omega
    | writeAt b off =>
      obtain ⟨_, _, _, _, h⟩ := h1
      have h := h.resolve_left id
      simp only [File.next, overlay_length]; omega
    | seek off whence =>
      obtain ⟨_, p, hp, _, h⟩ := h1
      have h := h.resolve_right (fun h => h.1)
      simp only [File.next, hp, Int.toNat_natCast]
      rw [if_neg (by omega)]
    | truncate s => exact absurd rfl (hT _ (by simp) s)
    | read k => rfl
    | sync => rfl
    | getNode => rfl
    | size => rfl
    | hasChanges => rfl

theorem wrapData_leaf (d : Bytes) : wrapData (some d) = ((FSNode.new TRaw).setData (some d)).bytes := by
  unfold wrapData mustMarshal FSNode.bytes FSNode.getBytes
  rw [format_leaf]
  rfl

mutual
/-- `dagTruncate` cuts the tree. -/
theorem dagTruncate_tree (env : Env) (c : Cfg) (hok : c.OK) (hcfg : c.rawLeaves = true ∨ c.leafType = TRaw) : ∀ (t : T) (size : UInt64) (svc : Svc) (k : Node) (svc' : Svc),
    t.Lim → t.chunks.flatten.length < 2 ^ 64 → size.toNat < t.chunks.flatten.length →
    dagTruncate env (t.toNode c) size svc = (.ok k, svc') → ∃ t', t.Cut t' ∧ k = t'.toNode c ∧ t'.chunks.flatten = t.chunks.flatten.take size.toNat
  | .leaf d, size, svc, k, svc', hl, h64, hlt, h => by
    simp only [T.chunks, List.flatten_cons, List.flatten_nil, List.append_nil] at h64 hlt ⊢
    refine ⟨.leaf (d.take size.toNat), .leaf d _, ?_, by simp [T.chunks]⟩
    by_cases hr : c.rawLeaves
    · have hb : ∃ b : Builder, b.withCodec Builder.rawCodec = b ∧ ∀ w, c.leafNode w = .raw w b := by
        cases hc : c.cidBuilder with
        | none => exact ⟨⟨1, Builder.rawCodec, 0x12, 32⟩, rfl, fun w => by simp [Cfg.leafNode, hr, hc]⟩
        | some b => exact ⟨b.withCodec Builder.rawCodec, withCodec_idem _ _, fun w => by simp [Cfg.leafNode, hr, hc]⟩
      obtain ⟨b, e2, e3⟩ := hb
      rw [T.toNode, e3, dagTruncate, if_neg (by omega)] at h
      cases h
      rw [T.toNode, e3, e2]
    · have ht : c.leafType = TRaw := hcfg.resolve_left hr
      rw [T.toNode, Cfg.leafNode, if_neg hr, dagTruncate] at h
      simp only [FSNode.fromBytes, bytes_leaf c.leafType (some d) (by simpa using h64)] at h
      rw [if_neg (by simp only [FSNode.data, Pb.Data.getData, Option.getD_some]; omega)] at h
      cases h
      rw [T.toNode, Cfg.leafNode, if_neg hr, ht, Option.map_some, wrapData_leaf]
  | .node [], size, svc, k, svc', hl, h64, hlt, h => by simp [T.chunks, T.chunksL] at hlt
  | .node (t :: ts), size, svc, k, svc', hl, h64, hlt, h => by
    rw [T.toNode, T.toLinks, dagTruncate] at h
    simp only [FSNode.fromBytes, bytes_addSizes] at h
    rw [← T.toLinks] at h
    have e0 : FSNode.removeAllBlockSizes ⟨{ typ := some TFile, filesize := some ((t :: ts).map T.size).sum, blocksizes := (t :: ts).map T.size }⟩ = addSizes (FSNode.new TFile) (([] : List T).map T.size) := rfl
    rw [e0] at h
    split at h
    · cases h
    · next fs' kept md svc1 hL =>
      obtain ⟨pre, x, x', post, h1, h2, h3, h4, h5, h6⟩ := truncLinks_tree env c hok hcfg (t :: ts) [] 0 size svc fs' kept md svc1 hl
        (by simpa [T.chunks] using h64) (by simp [T.chunksL]) (by simp) (by simpa [T.chunks] using hlt) hL
      subst h3 h4 h5
      split at h
      · cases h
      · split at h
        · cases h
        · next bytes hb =>
          cases h
          have e1 : bytes = (addSizes (FSNode.new TFile) ((pre ++ [x']).map T.size)).bytes := by
            rw [FSNode.bytes, hb]
          simp only [List.nil_append] at h1 h6
          refine ⟨.node (pre ++ [x']), ?_, ?_, ?_⟩
          · rw [h1]; exact .node pre x x' post h2
          · rw [T.toNode, e1, T.toLinks_append]; rfl
          · simp only [T.chunks]; exact h6
theorem truncLinks_tree (env : Env) (c : Cfg) (hok : c.OK) (hcfg : c.rawLeaves = true ∨ c.leafType = TRaw) : ∀ (ts done : List T) (cur size : UInt64) (svc : Svc) (fs' : FSNode) (kept : List Link) (md : Node) (svc' : Svc),
    T.LimL ts → (T.chunksL (done ++ ts)).flatten.length < 2 ^ 64 → cur.toNat = (T.chunksL done).flatten.length → cur.toNat ≤ size.toNat →
    size.toNat < (T.chunksL (done ++ ts)).flatten.length →
    truncLinks env (T.toLinks c ts) cur size (addSizes (FSNode.new TFile) (done.map T.size)) (T.toLinks c done) svc = (.ok (fs', kept, md), svc') →
    ∃ pre x x' post, done ++ ts = pre ++ x :: post ∧ x.Cut x' ∧ fs' = addSizes (FSNode.new TFile) ((pre ++ [x']).map T.size) ∧ kept = T.toLinks c pre ∧ md = x'.toNode c ∧
      (T.chunksL (pre ++ [x'])).flatten = (T.chunksL (done ++ ts)).flatten.take size.toNat
  | [], done, cur, size, svc, fs', kept, md, svc', hl, h64, hcur, hle, hlt, h => by
    rw [T.toLinks, truncLinks] at h
    cases h
  | t :: ts, done, cur, size, svc, fs', kept, md, svc', hl, h64, hcur, hle, hlt, h => by
    rw [T.toLinks, makeLink, truncLinks] at h
    have htot : (T.chunksL (done ++ t :: ts)).flatten.length = (T.chunksL done).flatten.length + t.chunks.flatten.length + (T.chunksL ts).flatten.length := by
      simp only [T.chunksL_append, T.chunksL, List.flatten_append, List.length_append]; omega
    have hfs := fileSize_true (sizesTrue_toNode c hok t hl.1) (content_toNode c hok t hl.1)
    split at h
    · cases h
    · rw [hfs] at h
      dsimp only at h
      have hsz : (UInt64.ofNat t.chunks.flatten.length).toNat = t.chunks.flatten.length := ofNat_toNat (by omega)
      have hadd : (cur + UInt64.ofNat t.chunks.flatten.length).toNat = cur.toNat + t.chunks.flatten.length := by
        rw [UInt64.toNat_add, hsz]; omega
      split at h
      · next hc =>
        rw [UInt64.lt_iff_toNat_lt, hadd] at hc
        have hsub : (size - cur).toNat = size.toNat - cur.toNat := UInt64.toNat_sub_of_le _ _ (by rw [UInt64.le_iff_toNat_le]; omega)
        split at h
        · cases h
        · next nchild svc2 hT =>
          cases h
          obtain ⟨t', h1, h2, h3⟩ := dagTruncate_tree env c hok hcfg t (size - cur) _ _ _ hl.1 (by omega) (by omega) hT
          refine ⟨done, t, t', ts, rfl, h1, ?_, rfl, h2, ?_⟩
          · rw [List.map_append, addSizes_append]
            have : t'.size = size - cur := by
              rw [T.size, h3, List.length_take, Nat.min_eq_left (by omega), UInt64.ofNat_toNat]
            simp [addSizes, this]
          · simp only [T.chunksL_append, T.chunksL, List.flatten_append, List.append_nil, h3, hsub]
            rw [hcur, List.take_append, List.take_of_length_le (l := (T.chunksL done).flatten) (by omega), List.take_append,
              show size.toNat - (T.chunksL done).flatten.length - t.chunks.flatten.length = 0 by omega]
            simp
      · next hc =>
        rw [UInt64.lt_iff_toNat_lt, hadd] at hc
        have e1 : FSNode.addBlockSize (addSizes (FSNode.new TFile) (done.map T.size)) (UInt64.ofNat t.chunks.flatten.length) = addSizes (FSNode.new TFile) ((done ++ [t]).map T.size) := by
          rw [List.map_append, addSizes_append]; rfl
        have e2 : T.toLinks c done ++ [.mk [] (t.toNode c).size (t.toNode c)] = T.toLinks c (done ++ [t]) := by
          rw [T.toLinks_append]; rfl
        rw [e1, e2] at h
        have := truncLinks_tree env c hok hcfg ts (done ++ [t]) _ size _ fs' kept md svc' hl.2 (by simpa using h64)
          (by rw [hadd, hcur]; simp [T.chunksL_append, T.chunksL]) (by rw [hadd]; omega) (by simpa using hlt) h
        simpa using this
end

end Unixfs.Mod
