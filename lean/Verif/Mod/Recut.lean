import Verif.Import.Fill
import Verif.Mod.Any
import Verif.Mod.Edit

/-!
# Edits inside a file keep the tree that the importer built

Helper lemmas for C85. `T.Edit t t'`: the same tree with other bytes in chunks of the same lengths.

The definitions in this file belong to proofs; they model no code.
-/

namespace Unixfs.Import
open Unixfs.Spec

/-- The same shape and the same chunk lengths. -/
structure T.Edit (t t' : T) : Prop where
  same : t.Same t'
  lens : t.chunks.map List.length = t'.chunks.map List.length

structure T.EditL (ts ts' : List T) : Prop where
  same : T.SameL ts ts'
  lens : (T.chunksL ts).map List.length = (T.chunksL ts').map List.length

mutual
theorem T.Same.refl : ∀ (t : T), t.Same t
  | .leaf _ => by simp [T.Same]
  | .node ts => by simp only [T.Same]; exact T.SameL.refl ts
theorem T.SameL.refl : ∀ (ts : List T), T.SameL ts ts
  | [] => by simp [T.SameL]
  | t :: ts => by simp only [T.SameL]; exact ⟨T.Same.refl t, T.SameL.refl ts⟩
end

mutual
theorem T.Same.trans : ∀ {a b c : T}, a.Same b → b.Same c → a.Same c
  | .leaf _, .leaf _, .leaf _, _, _ => by simp [T.Same]
  | .node as, .node bs, .node cs, h, h' => by
    simp only [T.Same] at h h' ⊢
    exact T.SameL.trans h h'
  | .leaf _, .node _, _, h, _ => by simp [T.Same] at h
  | .node _, .leaf _, _, h, _ => by simp [T.Same] at h
  | .leaf _, .leaf _, .node _, _, h => by simp [T.Same] at h
  | .node _, .node _, .leaf _, _, h => by simp [T.Same] at h
theorem T.SameL.trans : ∀ {a b c : List T}, T.SameL a b → T.SameL b c → T.SameL a c
  | [], [], [], _, _ => by simp [T.SameL]
  | a :: as, b :: bs, c :: cs, h, h' => by
    simp only [T.SameL] at h h' ⊢
    exact ⟨T.Same.trans h.1 h'.1, T.SameL.trans h.2 h'.2⟩
  | [], _ :: _, _, h, _ => by simp [T.SameL] at h
  | _ :: _, [], _, h, _ => by simp [T.SameL] at h
  | [], [], _ :: _, _, h => by simp [T.SameL] at h
  | _ :: _, _ :: _, [], _, h => by simp [T.SameL] at h
end

mutual
theorem T.Same.symm : ∀ {a b : T}, a.Same b → b.Same a
  | .leaf _, .leaf _, _ => by simp [T.Same]
  | .node as, .node bs, h => by
    simp only [T.Same] at h ⊢
    exact T.SameL.symm h
  | .leaf _, .node _, h => by simp [T.Same] at h
  | .node _, .leaf _, h => by simp [T.Same] at h
theorem T.SameL.symm : ∀ {a b : List T}, T.SameL a b → T.SameL b a
  | [], [], _ => by simp [T.SameL]
  | a :: as, b :: bs, h => by
    simp only [T.SameL] at h ⊢
    exact ⟨T.Same.symm h.1, T.SameL.symm h.2⟩
  | [], _ :: _, h => by simp [T.SameL] at h
  | _ :: _, [], h => by simp [T.SameL] at h
end

mutual
theorem T.Lim.chunks : ∀ {t : T}, t.Lim → ∀ x ∈ t.chunks, x.length ≤ blockSizeLimit
  | .leaf d, h, x, hx => by
    simp only [T.chunks, List.mem_singleton] at hx
    rw [hx]; exact h
  | .node ts, h, x, hx => T.LimL.chunks (ts := ts) h x hx
theorem T.LimL.chunks : ∀ {ts : List T}, T.LimL ts → ∀ x ∈ T.chunksL ts, x.length ≤ blockSizeLimit
  | [], _, x, hx => by simp [T.chunksL] at hx
  | t :: ts, h, x, hx => by
    simp only [T.chunksL, List.mem_append] at hx
    exact hx.elim (T.Lim.chunks h.1 x) (T.LimL.chunks h.2 x)
end

/-- Chunks of given lengths are determined by their content. -/
theorem chunks_inj : ∀ {a b : List Bytes}, a.map List.length = b.map List.length → a.flatten = b.flatten → a = b
  | [], [], _, _ => rfl
  | [], _ :: _, h, _ => by simp at h
  | _ :: _, [], h, _ => by simp at h
  | x :: a, y :: b, h, h' => by
    simp only [List.map_cons, List.cons.injEq] at h
    simp only [List.flatten_cons] at h'
    obtain ⟨h1, h2⟩ := List.append_inj h' h.1
    rw [h1, chunks_inj h.2 h2]

theorem T.Edit.refl (t : T) : t.Edit t := ⟨.refl t, rfl⟩
theorem T.EditL.refl (ts : List T) : T.EditL ts ts := ⟨.refl ts, rfl⟩
theorem T.Edit.trans {a b c : T} (h : a.Edit b) (h' : b.Edit c) : a.Edit c := ⟨h.1.trans h'.1, h.2.trans h'.2⟩

theorem T.EditL.cons {t t' : T} {ts ts' : List T} (h : t.Edit t') (h' : T.EditL ts ts') : T.EditL (t :: ts) (t' :: ts') :=
  ⟨by simp only [T.SameL]; exact ⟨h.1, h'.1⟩, by simp only [T.chunksL, List.map_append]; rw [h.2, h'.2]⟩

theorem T.EditL.uncons {t t' : T} {ts ts' : List T} (h : T.EditL (t :: ts) (t' :: ts')) : t.Edit t' ∧ T.EditL ts ts' := by
  obtain ⟨h1, h2⟩ := h
  simp only [T.SameL] at h1
  simp only [T.chunksL, List.map_append] at h2
  obtain ⟨h3, h4⟩ := List.append_inj h2 (by simp [T.Same.count h1.1])
  exact ⟨⟨h1.1, h3⟩, ⟨h1.2, h4⟩⟩

theorem T.Edit.node {ts ts' : List T} : (T.node ts).Edit (T.node ts') ↔ T.EditL ts ts' :=
  ⟨fun ⟨a, b⟩ => ⟨by simpa only [T.Same] using a, b⟩, fun ⟨a, b⟩ => ⟨by simpa only [T.Same] using a, b⟩⟩

theorem T.Edit.total {t t' : T} (h : t.Edit t') : t.chunks.flatten.length = t'.chunks.flatten.length := by
  rw [List.length_flatten, List.length_flatten, h.2]

theorem T.Edit.size {t t' : T} (h : t.Edit t') : t.size = t'.size := by
  unfold T.size; rw [h.total]

theorem T.EditL.sizes : ∀ {ts ts' : List T}, T.EditL ts ts' → ts.map T.size = ts'.map T.size
  | [], [], _ => rfl
  | [], _ :: _, h => by have := h.1; simp [T.SameL] at this
  | _ :: _, [], h => by have := h.1; simp [T.SameL] at this
  | t :: ts, t' :: ts', h => by
    simp only [List.map_cons]
    rw [h.uncons.1.size, T.EditL.sizes h.uncons.2]

theorem T.Edit.lim {t t' : T} (h : t.Edit t') (hl : ∀ c ∈ t.chunks, c.length ≤ blockSizeLimit) : ∀ c ∈ t'.chunks, c.length ≤ blockSizeLimit := by
  intro c hc
  have : c.length ∈ t'.chunks.map List.length := List.mem_map_of_mem hc
  rw [← h.2] at this
  obtain ⟨x, hx, e⟩ := List.mem_map.mp this
  rw [← e]; exact hl x hx

/-- The message of a protobuf leaf. -/
theorem format_leaf (t : UInt32) (d : Option Bytes) : ((FSNode.new t).setData d).format =
    { typ := some t, data := d, filesize := some (UInt64.ofNat (d.getD []).length) } := by
  simp [FSNode.setData, FSNode.new, FSNode.updateFilesize, Pb.Data.getFilesize, FSNode.data, Pb.Data.getData]

theorem leaf_length (t : UInt32) {d d' : Bytes} (h : d.length = d'.length) :
    ((FSNode.new t).setData (some d)).bytes.length = ((FSNode.new t).setData (some d')).bytes.length := by
  simp only [FSNode.bytes, FSNode.getBytes, format_leaf, Pb.Data.marshal, Option.getD_some, h]
  simp [Pb.encOpt, Pb.encBytesField, h]

mutual
/-- Link size and length depend on the lengths of the chunks only. -/
theorem T.Edit.node_size (c : Cfg) : ∀ {t t' : T}, t.Edit t' →
    (t.toNode c).blockLen = (t'.toNode c).blockLen ∧ (t.toNode c).size = (t'.toNode c).size ∧ (t.toNode c).cidLen = (t'.toNode c).cidLen
  | .leaf d, .leaf d', h => by
    have hd : d.length = d'.length := by simpa [T.chunks] using h.2
    simp only [T.toNode, Cfg.leafNode]
    have hl := leaf_length c.leafType hd
    split
    · split <;> simp [Node.blockLen, Node.size, Node.links, Node.cidLen, hd]
    · have he : ((FSNode.new c.leafType).setData (some d)).bytes.isEmpty = ((FSNode.new c.leafType).setData (some d')).bytes.isEmpty := by
        rw [Bool.eq_iff_iff, List.isEmpty_iff_length_eq_zero, List.isEmpty_iff_length_eq_zero, hl]
      simp [Node.blockLen, Node.size, Node.links, Node.cidLen, hl, he]
  | .node ts, .node ts', h => by
    have h := T.Edit.node.mp h
    obtain ⟨h1, h2⟩ := T.EditL.links_size c h
    simp only [T.toNode]
    rw [h.sizes]
    simp only [Node.blockLen, Node.size, Node.links, Node.cidLen, h1, h2, and_self]
  | .leaf _, .node _, h => by have := h.1; simp [T.Same] at this
  | .node _, .leaf _, h => by have := h.1; simp [T.Same] at this
theorem T.EditL.links_size (c : Cfg) : ∀ {ts ts' : List T}, T.EditL ts ts' →
    (T.toLinks c ts).map Node.linkLen = (T.toLinks c ts').map Node.linkLen ∧ (T.toLinks c ts).map Link.tsize = (T.toLinks c ts').map Link.tsize
  | [], [], _ => ⟨rfl, rfl⟩
  | [], _ :: _, h => by have := h.1; simp [T.SameL] at this
  | _ :: _, [], h => by have := h.1; simp [T.SameL] at this
  | t :: ts, t' :: ts', h => by
    obtain ⟨_, h1, h2⟩ := T.Edit.node_size c h.uncons.1
    obtain ⟨h3, h4⟩ := T.EditL.links_size c h.uncons.2
    simp only [T.toLinks, List.map_cons, h3, h4, makeLink, Node.linkLen, Link.target, Link.name, Link.tsize, h1, h2, and_self]
end

end Unixfs.Import

namespace Unixfs.Mod
open Unixfs Unixfs.Import Unixfs.Spec

theorem withCodec_idem (b : Builder) (c : Nat) : (b.withCodec c).withCodec c = b.withCodec c := by
  simp only [Builder.withCodec]
  split
  · simp_all
  · simp

mutual
/-- `modifyDag` keeps the tree. -/
theorem modifyDag_tree (env : Env) (c : Cfg) : ∀ (t : T) (off : UInt64) (buf : Bytes) (svc : Svc) (k x : Node) (rest : Bytes) (svc' : Svc),
    t.Lim → modifyDag env (t.toNode c) off buf svc = (.ok k, x, rest, svc') → ∃ t', t.Edit t' ∧ k = t'.toNode c
  | .leaf d, off, buf, svc, k, x, rest, svc', hl, h => by
    have key : ∀ w : Bytes, w.length = d.length → (T.leaf d).Edit (.leaf w) := by
      intro w hw
      exact ⟨by simp [T.Same], by simp [T.chunks, hw]⟩
    by_cases hr : c.rawLeaves
    · have hb : ∃ b : Builder, b.withCodec Builder.rawCodec = b ∧ ∀ w, c.leafNode w = .raw w b := by
        cases hc : c.cidBuilder with
        | none => exact ⟨⟨1, Builder.rawCodec, 0x12, 32⟩, rfl, fun w => by simp [Cfg.leafNode, hr, hc]⟩
        | some b => exact ⟨b.withCodec Builder.rawCodec, withCodec_idem _ _, fun w => by simp [Cfg.leafNode, hr, hc]⟩
      obtain ⟨b, e2, e3⟩ := hb
      rw [T.toNode, e3, modifyDag] at h
      split at h
      · cases h
      · next hlt =>
        dsimp only at h
        split at h <;> cases h
        exact ⟨.leaf (writeInto d off.toNat buf).1, key _ (writeInto_length (by omega)), by rw [T.toNode, e3, e2]⟩
    · rw [T.toNode, Cfg.leafNode, if_neg hr, modifyDag] at h
      have hd : d.length < 2 ^ 64 := lim_lt hl
      simp only [FSNode.fromBytes, bytes_leaf c.leafType (some d) (by simpa using hd)] at h
      split at h
      · cases h
      · next hlt =>
        simp only [FSNode.data, Pb.Data.getData, Option.getD_some, Option.map_some] at h hlt
        have hw : (writeInto d off.toNat buf).1.length = d.length := writeInto_length (by omega)
        generalize writeInto d off.toNat buf = w at h hw
        have e : (⟨{ typ := some c.leafType, data := some w.1, filesize := some (UInt64.ofNat d.length) }⟩ : FSNode) =
            (FSNode.new c.leafType).setData (some w.1) := by
          have := format_leaf c.leafType (some w.1)
          rw [Option.getD_some, hw] at this
          cases hh : (FSNode.new c.leafType).setData (some w.1)
          rw [hh] at this
          exact congrArg FSNode.mk this.symm
        rw [e, FSNode.getBytes_of_typ _ (by rw [format_leaf]; rfl)] at h
        dsimp only at h
        split at h <;> cases h
        exact ⟨.leaf w.1, key _ hw, by rw [T.toNode, Cfg.leafNode, if_neg hr]⟩
  | .node [], off, buf, svc, k, x, rest, svc', hl, h => by
    refine ⟨.node [], .refl _, ?_⟩
    rw [T.toNode, T.toLinks, modifyDag] at h
    simp only [FSNode.fromBytes, bytes_addSizes, List.map_nil, List.sum_nil] at h
    split at h
    · cases h
    · simp only [FSNode.data, Pb.Data.getData, Option.getD_none, Option.map_none] at h
      have e : (⟨{ typ := some TFile, filesize := some 0, blocksizes := [] }⟩ : FSNode) = addSizes (FSNode.new TFile) ([] : List UInt64) := rfl
      rw [e, FSNode.getBytes_of_typ _ (by rfl)] at h
      dsimp only at h
      split at h <;> cases h
      rw [T.toNode, T.toLinks]; rfl
  | .node (t :: ts), off, buf, svc, k, x, rest, svc', hl, h => by
    rw [T.toNode, T.toLinks, modifyDag] at h
    simp only [FSNode.fromBytes, bytes_addSizes, FSNode.blockSizes] at h
    split at h
    · cases h
    · next ls' buf' svc1 hL =>
      rw [← T.toLinks] at hL
      obtain ⟨ts', h1, rfl⟩ := modifyLinks_tree env c (t :: ts) 0 off buf svc ls' buf' svc1 hl hL
      split at h <;> cases h
      exact ⟨.node ts', T.Edit.node.mpr h1, by rw [T.toNode, h1.sizes]⟩
theorem modifyLinks_tree (env : Env) (c : Cfg) : ∀ (ts : List T) (cur off : UInt64) (buf : Bytes) (svc : Svc) (ls' : List Link) (rest : Bytes) (svc' : Svc),
    T.LimL ts → modifyLinks env (ts.map T.size) (T.toLinks c ts) cur off buf svc = (none, ls', rest, svc') → ∃ ts', T.EditL ts ts' ∧ ls' = T.toLinks c ts'
  | [], cur, off, buf, svc, ls', rest, svc', _, h => by
    rw [List.map_nil, modifyLinks] at h
    cases h
    exact ⟨[], .refl _, rfl⟩
  | t :: ts, cur, off, buf, svc, ls', rest, svc', hl, h => by
    rw [List.map_cons, T.toLinks, makeLink, modifyLinks] at h
    split at h
    · split at h
      · cases h
      · split at h
        · cases h
        · next k n' buf1 s2 hk =>
          obtain ⟨t', h1, rfl⟩ := modifyDag_tree env c t _ _ _ _ _ _ _ hl.1 hk
          have hs := (T.Edit.node_size c h1).2.1
          split at h
          · cases h
            exact ⟨t' :: ts, .cons h1 (.refl _), by rw [T.toLinks, makeLink, hs]⟩
          · split at h
            next r ls1 buf2 s3 hL =>
            cases h
            obtain ⟨ts', h2, rfl⟩ := modifyLinks_tree env c ts _ _ _ _ _ _ _ hl.2 hL
            exact ⟨t' :: ts', .cons h1 h2, by rw [T.toLinks, makeLink, hs]⟩
    · split at h
      next r ls1 buf2 s3 hL =>
      cases h
      obtain ⟨ts', h2, rfl⟩ := modifyLinks_tree env c ts _ _ _ _ _ _ _ hl.2 hL
      exact ⟨t :: ts', .cons (.refl _) h2, by rw [T.toLinks, makeLink]⟩
end


variable {env : Env} {root : Node} {g : Prop} {dm dm' : DM} {f : F} {c : Cfg} {t : T}

/-- The DAG is the tree `t` with other bytes, or the file has grown. -/
def Kept (c : Cfg) (t : T) (n : Node) (len : Nat) : Prop :=
  t.chunks.flatten.length < len ∨ (len = t.chunks.flatten.length ∧ ∃ t', t.Edit t' ∧ n = t'.toNode c)

theorem Kept.grow {n n' : Node} {a b : Nat} (h : Kept c t n a) (hab : a < b) : Kept c t n' b := by
  rcases h with h | ⟨h, _⟩
  · exact .inl (by omega)
  · exact .inl (by omega)

theorem F.flush_ge (f : F) : f.c.length ≤ f.flush.c.length := by rw [F.flush_len]; split <;> omega

/-- `Sync`. -/
theorem sync_kept {a : Unit} (hlim : ∀ x ∈ t.chunks, x.length ≤ blockSizeLimit) (h : R0 root g dm f) (hk : Kept c t dm.cur f.c.length)
    (hS : dm.sync env = (.ok a, dm')) : Kept c t dm'.cur f.flush.c.length := by
  have hge := F.flush_ge f
  rcases Nat.lt_or_ge f.c.length f.flush.c.length with hlt | hle
  · exact hk.grow hlt
  have heq : f.flush.c.length = f.c.length := by omega
  rw [heq]
  rcases hk with hk | ⟨hk, t1, ht, hcur⟩
  · exact .inl hk
  refine .inr ⟨hk, ?_⟩
  unfold DM.sync at hS
  split at hS
  · cases hS; exact ⟨t1, ht, hcur⟩
  · next b hb =>
    have hfb : f.buf = some b := by rw [← h.buf, hb]
    have hfl := F.flush_len f
    rw [heq, hfb] at hfl
    simp only [F.pend, hfb, Option.getD_some, Option.isSome_some, if_true] at hfl
    have hin : f.ws + b.length ≤ f.c.length := by omega
    have h1 := h.lenc
    have hlen : (UInt64.ofNat f.c.length).toNat = f.c.length := ofNat_toNat (by omega)
    simp only [fileSize_true h.sizes h.cont] at hS
    rw [if_neg (by rw [UInt64.lt_iff_toNat_lt, hlen, h.ws]; omega)] at hS
    unfold DM.syncModify at hS
    simp only [hb, Option.getD_some] at hS
    have hM := modifyDag_spec env dm.cur dm.ws b dm.svc f.c h.sizes h.cont (by omega) (by rw [h.ws]; omega)
    split at hS
    · cases hS
    · next k x rest svc hm =>
      rw [hm] at hM
      have hrest : rest = [] := by
        rw [hM.rest]; simp only [writeInto]; rw [h.ws]; exact List.drop_of_length_le (by omega)
      rw [hcur] at hm
      obtain ⟨t2, ht2, e2⟩ := modifyDag_tree env c t1 _ _ _ _ _ _ _ (T.lim_of_chunks t1 (ht.lim hlim)) hm
      split at hS
      · cases hS
      · unfold DM.syncTail at hS
        simp only [hrest, Option.getD_some, List.isEmpty_nil, if_true, Prod.mk.injEq, true_and] at hS
        rw [← hS]
        exact ⟨t2, ht.trans ht2, e2⟩

/-- `Write`. -/
theorem write_kept {a : Int} (hlim : ∀ x ∈ t.chunks, x.length ≤ blockSizeLimit) (h : R0 root g dm f) (hk : Kept c t dm.cur f.c.length) (b : Bytes)
    (h1 : f.ws + f.pend.length + b.length < 2 ^ 63) (h2 : f.cw + b.length < 2 ^ 63)
    (hS : dm.write env b = (.ok a, dm')) : Kept c t dm'.cur (f.write env.wbuf b).c.length := by
  unfold DM.write at hS
  unfold F.write
  have hp : dm.buf.getD [] = f.pend := by rw [h.buf]; rfl
  simp only [hp] at hS
  have hR : R0 root g { dm with read := none, buf := some (f.pend ++ b), cw := dm.cw + UInt64.ofNat b.length }
      { f with buf := some (f.pend ++ b), cw := f.cw + b.length, rd := false } := by
    refine ⟨h.sizes, h.cont, h.ws, ?_, rfl, h.lenc, ?_, h2, h.grow, h.store⟩
    · show (dm.cw + UInt64.ofNat b.length).toNat = _
      rw [uadd rfl (by rw [h.cw]; omega), h.cw]
    · show f.ws + (f.pend ++ b).length < 2 ^ 63
      rw [List.length_append]; omega
  dsimp only
  split at hS
  · next hw =>
    rw [if_pos hw]
    split at hS
    · cases hS
    · next hS' =>
      cases hS
      exact sync_kept hlim hR hk hS'
  · next hw =>
    rw [if_neg hw]
    cases hS
    exact hk

/-- `WriteAt`. -/
theorem writeAt_kept {a : Int} (hsp : SplitOK env) (hlim : ∀ x ∈ t.chunks, x.length ≤ blockSizeLimit) (h : R0 root g dm f) (hk : Kept c t dm.cur f.c.length) (b : Bytes) (off : Nat)
    (h1 : f.ws + f.pend.length + b.length < 2 ^ 63 ∨ f.SafeAt b off) (h2 : f.cw + b.length < 2 ^ 63) (h3 : off + b.length < 2 ^ 63)
    (hgf : g ∨ f.buf = none ∨ f.ws + f.pend.length ≤ f.c.length) (hg : g ∨ off + b.length ≤ f.c.length)
    (hS : dm.writeAt env b off = (.ok a, dm')) : Kept c t dm'.cur (f.writeAt env.wbuf b off).c.length := by
  unfold DM.writeAt at hS
  unfold F.writeAt
  have hws : s64 dm.ws = f.ws := by have := h.lenw; rw [s64_of (by rw [h.ws]; omega), h.ws]
  have hcw : (u64 (off : Int) ≠ dm.cw) ↔ off ≠ f.cw := by rw [ne_eq, u64_eq (by omega) (by omega), h.cw, Int.toNat_natCast]
  have hp : dm.buf.getD [] = f.pend := by rw [h.buf]; rfl
  simp only [hws, hcw, hp, Nat.cast_inj] at hS
  simp only [h.buf] at hS
  by_cases hA : off = f.ws ∧ f.buf.isSome = true
  · rw [if_pos hA] at hS ⊢
    by_cases hB : b.length ≥ f.pend.length
    · rw [if_pos hB] at hS ⊢
      have hR : R0 root g { dm with buf := some [] } { f with buf := some [] } :=
        ⟨h.sizes, h.cont, h.ws, h.cw, rfl, h.lenc, by have := h.lenw; show f.ws + 0 < _; omega, h.lencw, h.grow, h.store⟩
      exact write_kept hlim hR hk b (by show f.ws + 0 + _ < _; omega) h2 hS
    · rw [if_neg hB] at hS ⊢
      exact write_kept hlim h hk b (h1.elim id (fun hs => absurd (hs.1 hA) hB)) h2 hS
  · rw [if_neg hA] at hS ⊢
    by_cases hC : off ≠ f.cw
    · rw [if_pos hC, h.size] at hS
      rw [if_pos hC]
      dsimp only at hS
      have hflr := h.flush_len
      have hge := F.flush_ge f
      -- after `expandSparse`
      obtain ⟨e, dm1, e1, hf⟩ | ⟨dm1, f1, e1, hf1, hR1, hk1, hlen, hgf1⟩ : Failed env
          (if (off : Int) > (f.flush.c.length : Int) then dm.expandSparse env (i64 (off - f.flush.c.length)) else (.ok (), dm)) ∨ ∃ dm1 f1,
          (if (off : Int) > (f.flush.c.length : Int) then dm.expandSparse env (i64 (off - f.flush.c.length)) else (.ok (), dm)) = (.ok (), dm1) ∧
          f1 = (if off > f.flush.c.length then f.expand (off - f.flush.c.length) else f) ∧ R0 root g dm1 f1 ∧
          Kept c t dm1.cur f1.c.length ∧ f1.flush.c.length < 2 ^ 63 ∧ (g ∨ f1.buf = none ∨ f1.ws + f1.pend.length ≤ f1.c.length) := by
        by_cases hgt : off > f.flush.c.length
        · rw [if_pos (by omega), Reader.i64_id (by omega) (by omega), show (off : Int) - f.flush.c.length = ((off - f.flush.c.length : Nat) : Int) by omega]
          refine (expand_sim h (off - f.flush.c.length) (by omega) (hg.resolve_right (by omega))).imp id ?_
          rintro ⟨dm1, e, hR, _, _, e2, e3⟩
          refine ⟨dm1, f.expand (off - f.flush.c.length), e, by rw [if_pos hgt], hR, hk.grow ?_, hR.flush_len, .inl (hg.resolve_right (by omega))⟩
          simp only [F.expand, zeros, List.length_append, List.length_replicate]; omega
        · exact .inr ⟨dm, f, by rw [if_neg (by omega)], by rw [if_neg hgt], h, hk, hflr, hgf⟩
      · rw [e1] at hS; cases hS
      rw [e1] at hS
      rw [← hf1]
      dsimp only at hS
      obtain ⟨e, dm2, e4, hf⟩ | ⟨dm2, e4, hR2, _⟩ := sync_sim hsp hR1 hgf1
      · rw [e4] at hS; cases hS
      rw [e4] at hS
      dsimp only at hS
      have hk2 := sync_kept hlim hR1 hk1 e4
      have hpend := F.flush_pend f1
      have hR3 : R0 root g { dm2 with ws := u64 off } { f1.flush with ws := off } :=
        ⟨hR2.sizes, hR2.cont, by rw [u64_toNat (by omega) (by omega), Int.toNat_natCast], hR2.cw, hR2.buf, hlen,
          by show off + f1.flush.pend.length < _; rw [hpend]; simp; omega, hR2.lencw, hR2.grow, hR2.store⟩
      have hcw1 : f1.flush.cw = f.cw := by
        rw [F.flush_cw, hf1]; split <;> rfl
      exact write_kept hlim hR3 hk2 b (by show off + f1.flush.pend.length + _ < _; rw [hpend]; simp; omega)
        (by show f1.flush.cw + _ < _; rw [hcw1]; exact h2) hS
    · rw [if_neg hC] at hS ⊢
      exact write_kept hlim h hk b (h1.elim id (fun hs => by have := (hs.2 (by omega)).resolve_right hA; omega)) h2 hS

theorem seekTail_cur {d : DM} {sz off whence a pos : Int} {new : UInt64} (h : (d.seekTail env sz new pos off whence).1 = .ok a) (hle : a ≤ sz) :
    (d.seekTail env sz new pos off whence).2.cur = d.cur := by
  unfold DM.seekTail at h ⊢
  by_cases hp : pos > sz
  · rw [if_pos hp] at h
    exfalso
    generalize DM.expandSparse env d (i64 (pos - sz)) = E at h
    obtain ⟨r, d2⟩ := E
    cases r with
    | error e => cases h
    | ok u =>
      dsimp only at h
      generalize d2.read = rd at h
      cases rd with
      | none => cases h; omega
      | some r =>
        dsimp only at h
        generalize (DM.readerSeek env r d2.svc.tick off whence) = Q at h
        obtain ⟨res, dr⟩ := Q
        dsimp only at h
        generalize res.err = er at h
        cases er with
        | none => cases h; omega
        | some e => cases h
  · rw [if_neg hp]
    dsimp only
    split <;> rfl

theorem seek_cur {d : DM} {off whence a sz : Int} (hS : dm.sync env = (.ok (), d)) (hz : d.size = .ok sz) (h : (dm.seek env off whence).1 = .ok a)
    (hle : a ≤ sz) : (dm.seek env off whence).2.cur = d.cur := by
  unfold DM.seek at h ⊢
  rw [hS] at h ⊢
  dsimp only at h ⊢
  rw [hz] at h ⊢
  dsimp only at h ⊢
  generalize d.seekTo sz off whence = T at h ⊢
  cases T with
  | error e => cases h
  | ok new =>
    dsimp only at h ⊢
    generalize s64 new = pos at h ⊢
    exact seekTail_cur h hle

theorem read_cur {d : DM} {k : Nat} (hS : dm.sync env = (.ok (), d)) : (dm.readN env k).2.cur = d.cur := by
  have p1 := (readPrep_keeps env d).1
  unfold DM.readN
  rw [hS]
  dsimp only
  generalize d.readPrep env = P at p1 ⊢
  obtain ⟨r, dm2⟩ := P
  cases r with
  | error e' => exact p1
  | ok r => exact p1

/-- What is kept by the calls other than `Truncate`. -/
def WK (root : Node) (B : Nat) (c : Cfg) (t : T) (dm : DM) : Prop := ∃ f, R0 root True dm f ∧ f.Le B ∧ Kept c t dm.cur f.c.length

theorem WK.step {B : Nat} (hsp : SplitOK env) (hlim : ∀ x ∈ t.chunks, x.length ≤ blockSizeLimit) (h : WK root B c t dm) (op : MOp) (hn : NonNeg op)
    (hT : ∀ s, op ≠ .truncate s) (hB : B + reachOf op < 2 ^ 63)
    (hf : Fine op (dm.step env op).1) : WK root (B + reachOf op) c t (dm.step env op).2 := by
  obtain ⟨f, hR, hle, hk⟩ := h
  obtain ⟨h1, h2, h3⟩ := hle
  have hsync : (∃ dm', dm.sync env = (.ok (), dm') ∧ R0 root True dm' f.flush ∧ f.flush.Le B ∧ Kept c t dm'.cur f.flush.c.length) ∨
      ∃ e dm', dm.sync env = (.error e, dm') ∧ e ≠ .eof := by
    rcases sync_sim hsp hR (.inl trivial) with ⟨e, dm', e1, hf⟩ | ⟨dm', e, hR', _⟩
    · exact .inr ⟨e, dm', e1, hf.not_eof hsp⟩
    · refine .inl ⟨dm', e, hR', ⟨F.flush_le h1 h2, ?_, ?_⟩, sync_kept hlim hR hk e⟩
      · rw [F.flush_ws, F.flush_pend]; exact h2
      · rw [F.flush_cw]; exact h3
  obtain ⟨hf, hnn⟩ := hf
  cases op with
  | write b =>
    have hf := hf.resolve_right (by simp)
    obtain ⟨a, ha, _⟩ := num_ok hf
    simp only [reachOf] at hB ⊢
    simp only [DM.step] at ha ⊢
    rcases write_sim hsp hR b (by omega) (by omega) (.inl trivial) with hf | ⟨dm', e, hR', _, _⟩
    · exact (not_failed hf ⟨a, ha⟩).elim
    · rw [e]
      obtain ⟨e1, e2, e3, e4, e5⟩ := F.write_view f env.wbuf b
      exact ⟨_, hR'.base, ⟨F.write_le _ _ (by omega) (by omega), by omega, by omega⟩, write_kept hlim hR hk b (by omega) (by omega) e⟩
  | writeAt b off =>
    have hf := hf.resolve_right (by simp)
    obtain ⟨a, ha, _⟩ := num_ok hf
    have hn : 0 ≤ off.toInt := hn
    obtain ⟨o, ho⟩ : ∃ o : Nat, off.toInt = o := ⟨off.toInt.toNat, by omega⟩
    simp only [reachOf, ho, Int.natAbs_natCast] at hB ⊢
    simp only [DM.step] at ha ⊢
    rw [ho] at ha ⊢
    rcases writeAt_sim hsp hR b o (by omega) (by omega) (.inr ⟨trivial, by omega⟩) (.inl trivial) (.inl trivial) with hf | ⟨dm', e, hR', _, _⟩
    · exact (not_failed hf ⟨a, ha⟩).elim
    · rw [e]
      obtain ⟨k1, k2, k3⟩ := F.writeAt_le env.wbuf b o h1 h2 h3
      exact ⟨_, hR'.base, ⟨k1, k2, k3⟩, writeAt_kept hsp hlim hR hk b o (.inl (by omega)) (by omega) (by omega) (.inl trivial) (.inl trivial) e⟩
  | read k =>
    simp only [DM.step] at hf ⊢
    obtain ⟨dm', e, hR', hle', hk'⟩ := hsync.resolve_right (by
      rintro ⟨e, dm', e1, hne⟩
      simp only [DM.readN, e1] at hf
      rcases hf with hf | hf
      · cases hf
      · exact hne (by simpa using hf.1))
    simp only [reachOf] at hB ⊢
    obtain ⟨f2, hR2, hl2⟩ := W.read hsp ⟨f, hR, h1, h2, h3⟩ k hB (hf.imp id (fun h => h.1)) ⟨(), by rw [e]⟩
    have hcur : (dm.readN env k).2.cur = dm'.cur := read_cur e
    refine ⟨f2, hR2, hl2, ?_⟩
    have hc2 := hR2.cont
    rw [hcur, hR'.cont, Option.some.injEq] at hc2
    rw [hcur, ← hc2]; exact hk'
  | seek off whence =>
    have hf := hf.resolve_right (by simp)
    obtain ⟨a, ha, hna⟩ := num_ok hf
    obtain ⟨dm', e, hR', hle', hk'⟩ := hsync.resolve_right (by
      rintro ⟨e, dm', e1, hne⟩
      simp only [DM.seek, e1] at ha
      cases ha)
    obtain ⟨p, f2, r1, _, hR2, r2, _, _, _, hle2⟩ := seek_any hsp hR ⟨h1, h2, h3⟩ _ _ hB ⟨(), by rw [e]⟩ ⟨a, ha, by rw [← hna]; exact hnn⟩
    refine ⟨f2, hR2, hle2, ?_⟩
    rw [r2]
    split
    · next hlt =>
      refine hk'.grow ?_
      simp only [resize, zeros, List.length_append, List.length_take, List.length_replicate]; omega
    · next hlt =>
      have hz := hR'.size
      rw [F.flush_flush] at hz
      have := seek_cur e hz r1 (by omega)
      show Kept c t (dm.seek env off.toInt whence).2.cur _
      rw [this]; exact hk'
  | truncate s => exact absurd rfl (hT s)
  | sync =>
    have hf := hf.resolve_right (by simp)
    obtain ⟨a, ha⟩ := unit_ok hf
    obtain ⟨dm', e, hR', hle', hk'⟩ := hsync.resolve_right (by
      rintro ⟨e, dm', e1, hne⟩
      rw [e1] at ha
      cases ha)
    simp only [DM.step, e]
    exact ⟨_, hR', hle', hk'⟩
  | getNode =>
    simp only [DM.step, DM.getNode] at hf ⊢
    obtain ⟨dm', e, hR', hle', hk'⟩ := hsync.resolve_right (by
      rintro ⟨e, dm', e1, hne⟩
      rw [e1] at hf
      rcases hf with hf | ⟨_, k, hk⟩
      · cases hf
      · cases hk)
    rw [e]
    exact ⟨_, hR', hle', hk'⟩
  | size => exact ⟨f, hR, ⟨h1, h2, h3⟩, hk⟩
  | hasChanges => exact ⟨f, hR, ⟨h1, h2, h3⟩, hk⟩

theorem WK.run (hsp : SplitOK env) (hlim : ∀ x ∈ t.chunks, x.length ≤ blockSizeLimit) : ∀ (ops : List MOp) {dm : DM} {B : Nat}, WK root B c t dm → (∀ op ∈ ops, NonNeg op) →
    (∀ op ∈ ops, ∀ s, op ≠ .truncate s) →
    B + (ops.map reachOf).sum < 2 ^ 63 → List.Forall₂ Fine ops (dm.run env ops).1 → WK root (B + (ops.map reachOf).sum) c t (dm.run env ops).2
  | [], dm, B, h, _, _, _, _ => by simpa [DM.run] using h
  | op :: ops, dm, B, h, hn, hT, hB, hf => by
    simp only [List.map_cons, List.sum_cons] at hB ⊢
    simp only [DM.run] at hf ⊢
    rcases hf with _ | ⟨h1, h2⟩
    have := WK.run hsp hlim ops (WK.step hsp hlim h op (hn op (by simp)) (hT op (by simp)) (by omega) h1) (fun o ho => hn o (by simp [ho]))
      (fun o ho => hT o (by simp [ho])) (by omega) h2
    rw [← Nat.add_assoc]; exact this

/-! ### Careful calls inside the file -/

theorem fine_inside (hsp : SplitOK env) {op : MOp} {r : MRes} (h : Fine op r) (ho : OutsideFailure env r) : False := by
  obtain ⟨h, -⟩ := h
  rcases ho with ⟨h1, _⟩ | ⟨h1, _⟩ | ⟨b, e, h1, h2⟩ | ⟨h1, _⟩
  · rcases h with h | ⟨h, _⟩ <;> rw [h1] at h <;> cases h
  · rcases h with h | ⟨h, _⟩ <;> rw [h1] at h <;> cases h
  · rcases h with h | ⟨h, _⟩ <;> rw [h1] at h <;> cases h
    exact (hsp b).2 h2
  · rcases h with h | ⟨h, _⟩ <;> rw [h1] at h <;> cases h

theorem careful_step (hsp : SplitOK env) (hlim : ∀ x ∈ t.chunks, x.length ≤ blockSizeLimit) {x : File} {tr : Track} (h : Sim root False dm x tr)
    (hk : Kept c t dm.cur x.data.length) (op : MOp) (hc : Careful False x tr op) (hT : ∀ s, op ≠ .truncate s) (hf : Fine op (dm.step env op).1) :
    Sim root False (dm.step env op).2 (x.next op) (tr.next (x.next op) op) ∧ Kept c t (dm.step env op).2.cur (x.next op).data.length := by
  rcases step_sim hsp h op hc with ho | ⟨x', hx, hS⟩
  · exact (fine_inside hsp hf ho).elim
  rw [hx.next_eq] at hS
  refine ⟨hS, ?_⟩
  obtain ⟨f, hR, hV, hgf⟩ := h
  have hgf' := hgf.resolve_left id
  have hlen2 : f.flush.c.length = f.c.length := by
    rw [F.flush_len]
    rcases hgf' with h | h
    · simp [h]
    · split <;> omega
  rw [← hV.data, hlen2] at hk
  obtain ⟨f', hR', hV', hgf''⟩ := hS
  have hlen3 : f'.flush.c.length = f'.c.length := by
    rw [F.flush_len]
    rcases hgf''.resolve_left id with h | h
    · simp [h]
    · split <;> omega
  rw [← hV'.data, hlen3]
  have same : ∀ {f2 : F}, R0 root False (dm.step env op).2 f2 → f'.c = f2.c := by
    intro f2 h2
    have := h2.cont
    rw [hR'.base.cont, Option.some.injEq] at this
    exact this
  have hsync : ∀ {d : DM}, dm.sync env = (.ok (), d) → R0 root False d f.flush ∧ Kept c t d.cur f.flush.c.length := by
    intro d hd
    refine ⟨?_, sync_kept hlim hR.base hk hd⟩
    rcases sync_sim hsp hR.base hgf with ⟨e, dm', e1, _⟩ | ⟨dm', e, hR', _⟩
    · rw [hd] at e1; cases e1
    · rw [hd] at e; cases e; exact hR'
  have hcase : (∃ d, dm.sync env = (.ok (), d)) ∨ ∃ e d, dm.sync env = (.error e, d) ∧ e ≠ .eof := by
    rcases sync_sim hsp hR.base hgf with ⟨e, dm', e1, hf⟩ | ⟨dm', e, hR', _⟩
    · exact .inr ⟨e, dm', e1, hf.not_eof hsp⟩
    · exact .inl ⟨dm', e⟩
  obtain ⟨hf, hnn⟩ := hf
  have hwp := hV.wp
  have hpos := hV.pos
  have hdat := hV.data
  cases op with
  | write b =>
    have hf := hf.resolve_right (by simp)
    obtain ⟨a, ha, _⟩ := num_ok hf
    obtain ⟨h1, h2, h3⟩ := hc
    have h3 := h3.resolve_left id
    rw [← hdat] at h3
    simp only [DM.step] at ha same ⊢
    rcases write_sim hsp hR.base b (by omega) (by omega) (.inr (by omega)) with hf | ⟨dm', e, hR2, _, _⟩
    · exact (not_failed hf ⟨a, ha⟩).elim
    · rw [e] at same ⊢
      rw [same hR2.base]
      exact write_kept hlim hR.base hk b (by omega) (by omega) e
  | writeAt b off =>
    have hf := hf.resolve_right (by simp)
    obtain ⟨a, ha, _⟩ := num_ok hf
    obtain ⟨h0, h1, h2, h3, h4⟩ := hc
    have h4 := h4.resolve_left id
    obtain ⟨o, ho⟩ : ∃ o : Nat, off.toInt = o := ⟨off.toInt.toNat, by omega⟩
    simp only [ho, Int.toNat_natCast] at h0 h1 h3 h4
    have hsafe : f.SafeAt b o := by
      constructor
      · rintro ⟨h5, h6⟩
        rcases h1 with h1 | ⟨_, h1 | h1⟩
        · omega
        · rw [hV.dirty h6] at h1; cases h1
        · omega
      · intro h5
        rcases h1 with h1 | ⟨h1, _⟩
        · left; omega
        · omega
    rw [← hdat] at h4
    simp only [DM.step] at ha same ⊢
    rw [ho] at ha same ⊢
    rcases writeAt_sim hsp hR.base b o (by omega) h3 (.inl hsafe) hgf (.inr (by omega)) with hf | ⟨dm', e, hR2, _, _⟩
    · exact (not_failed hf ⟨a, ha⟩).elim
    · rw [e] at same ⊢
      rw [same hR2.base]
      exact writeAt_kept hsp hlim hR.base hk b o (.inr hsafe) (by omega) (by omega) hgf (.inr (by omega)) e
  | read k =>
    simp only [DM.step] at hf same hR' ⊢
    obtain ⟨d, e⟩ := hcase.resolve_right (by
      rintro ⟨e, dm', e1, hne⟩
      simp only [DM.readN, e1] at hf
      rcases hf with hf | hf
      · cases hf
      · exact hne (by simpa using hf.1))
    obtain ⟨hR2, hk2⟩ := hsync e
    have hcur : (dm.readN env k).2.cur = d.cur := read_cur e
    have hc2 := hR'.base.cont
    rw [hcur, hR2.cont, Option.some.injEq] at hc2
    rw [hcur, ← hc2]; exact hk2
  | seek off whence =>
    have hf := hf.resolve_right (by simp)
    obtain ⟨a, ha, hna⟩ := num_ok hf
    simp only [DM.step] at ha hR' ⊢
    obtain ⟨d, e⟩ := hcase.resolve_right (by
      rintro ⟨e, dm', e1, hne⟩
      simp only [DM.seek, e1] at ha
      cases ha)
    obtain ⟨hR2, hk2⟩ := hsync e
    obtain ⟨h2, p, hp, hp63, hr⟩ := hc
    have hr := hr.resolve_right (fun h => h.1)
    rw [← hdat] at hr
    have hz := hR2.size
    rw [F.flush_flush] at hz
    have hseek := seek_sim hsp hR off whence p hp63 (by
      rcases target_eq hp with h | ⟨h, h'⟩ | ⟨h, h'⟩
      · exact .inl h
      · exact .inr (.inl ⟨h, by omega⟩)
      · have := h2 h
        exact .inr (.inr ⟨h, by rw [hV.data]; omega, fun _ => this⟩)) hgf (.inl hr)
    rcases hseek with hf | ⟨dm', e', _⟩
    · exact (not_failed hf ⟨a, ha⟩).elim
    have hcur := seek_cur e hz (a := (p : Int)) (off := off.toInt) (whence := whence) (by rw [e']) (by omega)
    have hc2 := hR'.base.cont
    rw [hcur, hR2.cont, Option.some.injEq] at hc2
    rw [hcur, ← hc2]; exact hk2
  | truncate s => exact absurd rfl (hT s)
  | sync =>
    have hf := hf.resolve_right (by simp)
    obtain ⟨a, ha⟩ := unit_ok hf
    obtain ⟨d, e⟩ := hcase.resolve_right (by
      rintro ⟨e, dm', e1, hne⟩
      rw [e1] at ha
      cases ha)
    obtain ⟨hR2, hk2⟩ := hsync e
    simp only [DM.step, e] at same ⊢
    rw [same hR2]; exact hk2
  | getNode =>
    simp only [DM.step, DM.getNode] at hf same ⊢
    obtain ⟨d, e⟩ := hcase.resolve_right (by
      rintro ⟨e, dm', e1, hne⟩
      rw [e1] at hf
      rcases hf with hf | ⟨_, k, hk⟩
      · cases hf
      · cases hk)
    obtain ⟨hR2, hk2⟩ := hsync e
    rw [e] at same ⊢
    rw [same hR2]; exact hk2
  | size =>
    rw [same (f2 := f) hR.base]; exact hk
  | hasChanges =>
    rw [same (f2 := f) hR.base]; exact hk

theorem careful_run (hsp : SplitOK env) (hlim : ∀ x ∈ t.chunks, x.length ≤ blockSizeLimit) : ∀ (ops : List MOp) {dm : DM} {x : File} {tr : Track}, Sim root False dm x tr →
    Kept c t dm.cur x.data.length → CarefulRun False x tr ops → (∀ op ∈ ops, ∀ s, op ≠ .truncate s) → List.Forall₂ Fine ops (dm.run env ops).1 →
    (∃ tr', Sim root False (dm.run env ops).2 (x.after ops) tr') ∧ Kept c t (dm.run env ops).2.cur (x.after ops).data.length
  | [], dm, x, tr, h, hk, _, _, _ => ⟨⟨tr, h⟩, hk⟩
  | op :: ops, dm, x, tr, h, hk, hc, hT, hf => by
    obtain ⟨hc1, hc2⟩ := hc
    simp only [DM.run] at hf ⊢
    rcases hf with _ | ⟨h1, h2⟩
    obtain ⟨hS, hk'⟩ := careful_step hsp hlim h hk op hc1 (hT op (by simp)) h1
    exact careful_run hsp hlim ops hS hk' hc2 (fun o ho => hT o (by simp [ho])) h2

end Unixfs.Mod
