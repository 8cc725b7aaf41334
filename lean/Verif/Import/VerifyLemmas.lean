import Verif.Import.TrickleLemmas

/-! # Trickle trees are accepted by `VerifyTrickleDagStructure`

The definitions in this file belong to proofs; they model no code.
-/

namespace Unixfs.Import.Trickle
open Unixfs.Spec

/-- The verification parameters fit the builder configuration. -/
structure Fits (p : VerifyParams) (c : Cfg) (m : Nat) : Prop where
  direct : p.direct = m
  layerRepeat : p.layerRepeat = 4
  rawLeaves : p.rawLeaves = c.rawLeaves
  canGet : ∀ n, p.canGet n = true
  lt : c.leafType = TRaw
  pfx : p.pfx = none ∨ ∃ b, c.cidBuilder = some b ∧ p.pfx = some b ∧ b.version ≤ 1 ∧ (b.codec = 0x55 → b.version = 1)

theorem Fits.pb {p : VerifyParams} {c : Cfg} {m : Nat} (h : Fits p c m) (d : Bytes) (ls : List Link) :
    prefixOK p (.proto d ls c.pbBuilder) 0x70 = true := by
  unfold prefixOK
  rcases h.pfx with hp | ⟨b, hb, hp, _⟩
  · rw [hp]
  · rw [hp]
    simp only [Builder.rawCodec]
    simp only [cidPrefix, Cfg.pbBuilder, hb, Option.getD_some]
    unfold Builder.withCodec
    by_cases hc : 0x70 = b.codec
    · obtain ⟨v, cc, mt, ml⟩ := b
      simp only at hc; subst hc; simp
    · simp [hc]

theorem Fits.raw {p : VerifyParams} {c : Cfg} {m : Nat} (h : Fits p c m) (d : Bytes) (hr : c.rawLeaves = true) :
    prefixOK p (c.leafNode d) 0x55 = true := by
  unfold prefixOK
  rcases h.pfx with hp | ⟨b, hb, hp, hv, hcv⟩
  · rw [hp]
  · rw [hp]
    simp only [Builder.rawCodec, Cfg.leafNode, hr, if_true, hb, cidPrefix]
    obtain ⟨v, cc, mt, ml⟩ := b
    simp only at hv hcv
    unfold Builder.withCodec
    by_cases hc : 0x55 = cc
    · subst hc; simp [hcv rfl]
    · simp only [hc, if_false]
      by_cases h0 : v = 0
      · simp [h0]
      · have : v = 1 := by omega
        simp [this]

theorem verify_leaf {p : VerifyParams} {c : Cfg} {m : Nat} (h : Fits p c m) (d : Bytes) (hl : d.length ≤ blockSizeLimit) :
    verifyRec p (c.leafNode d) 0 = .ok () := by
  have hr := h.rawLeaves
  by_cases hraw : c.rawLeaves = true
  · have hpre := h.raw d hraw
    obtain ⟨b, hn⟩ : ∃ b, c.leafNode d = .raw d b := by
      unfold Cfg.leafNode; rw [if_pos hraw]; cases c.cidBuilder <;> exact ⟨_, rfl⟩
    rw [hn] at hpre ⊢
    unfold verifyRec
    simp only [Node.links, Builder.rawCodec]
    simp [hr, hraw, hpre]
  · have hn : c.leafNode d = .proto ((FSNode.new c.leafType).setData (some d)).bytes [] c.pbBuilder := by
      unfold Cfg.leafNode; rw [if_neg hraw]
    have hpre := h.pb ((FSNode.new c.leafType).setData (some d)).bytes []
    rw [hn]
    unfold verifyRec
    simp only [Node.links, FSNode.fromBytes]
    rw [bytes_leaf _ _ (by simpa using lim_lt hl)]
    have : p.rawLeaves = false := by rw [hr]; simpa using hraw
    rw [h.lt] at hpre
    simp [FSNode.type, Pb.Data.getType, h.lt, this, hpre]

/-- The links of a trickle node are accepted. -/
theorem verifyLinks_ok {p : VerifyParams} {c : Cfg} {m : Nat} (h : Fits p c m) (depth : Int) (ts : List T) (i0 : Nat)
    (hleaf : ∀ i t, ts[i]? = some t → i0 + i < m → verifyRec p (t.toNode c) 0 = .ok ())
    (hlt : ∀ i t, ts[i]? = some t → m ≤ i0 + i → depth > 0 → (((i0 + i - m) / 4 + 1 : Nat) : Int) < depth)
    (hsub : ∀ i t, ts[i]? = some t → m ≤ i0 + i → verifyRec p (t.toNode c) (((i0 + i - m) / 4 + 1 : Nat) : Int) = .ok ()) :
    verifyLinks p (T.toLinks c ts) i0 depth = .ok () := by
  induction ts generalizing i0 with
  | nil => rfl
  | cons t ts ih =>
    have hrest := ih (i0 + 1)
      (fun i t' hi hlt => hleaf (i + 1) t' (by simpa using hi) (by omega))
      (fun i t' hi hmi hd => by
        have := hlt (i + 1) t' (by simpa using hi) (by omega) hd
        have he : i0 + (i + 1) - m = i0 + 1 + i - m := by omega
        rwa [he] at this)
      (fun i t' hi hmi => by
        have := hsub (i + 1) t' (by simpa using hi) (by omega)
        have he : i0 + (i + 1) - m = i0 + 1 + i - m := by omega
        rwa [he] at this)
    simp only [T.toLinks, makeLink]
    unfold verifyLinks
    simp only [h.canGet, not_true_eq_false, if_false, h.direct, h.layerRepeat]
    by_cases him : i0 < m
    · have := hleaf 0 t rfl (by omega)
      simp [him, this, hrest]
    · have h1 := hlt 0 t rfl (by omega)
      have h2 := hsub 0 t rfl (by omega)
      simp only [Nat.add_zero] at h1 h2
      simp only [him, if_false]
      rw [if_neg (by decide), if_neg (by intro hc; have := h1 hc.2; omega), h2]
      exact hrest

theorem verify_node {p : VerifyParams} {c : Cfg} {m : Nat} (h : Fits p c m) (depth : Int) (hd : depth ≠ 0) (ts : List T) :
    verifyRec p ((T.node ts).toNode c) depth = verifyLinks p (T.toLinks c ts) 0 depth := by
  have hp := h.pb (addSizes (FSNode.new TFile) (ts.map T.size)).bytes (T.toLinks c ts)
  conv_lhs => unfold verifyRec
  simp only [T.toNode, hd, if_false, hp, not_true_eq_false, FSNode.fromBytes, bytes_addSizes]
  simp [FSNode.type, Pb.Data.getType, FSNode.data, Pb.Data.getData]

theorem limL_getElem {ts : List T} (h : T.LimL ts) {i : Nat} {t : T} (hi : ts[i]? = some t) : t.Lim := by
  induction ts generalizing i with
  | nil => simp at hi
  | cons a ts ih =>
    cases i with
    | zero => simp only [List.getElem?_cons_zero, Option.some.injEq] at hi; subst hi; exact h.1
    | succ i => exact ih h.2 (by simpa using hi)

theorem Trk.verify {p : VerifyParams} {c : Cfg} {m : Nat} (h : Fits p c m) {D : Nat} {t : T} (ht : Trk m D t) (hl : t.Lim)
    (hD : D ≠ 0) : verifyRec p (t.toNode c) D = .ok () := by
  induction ht with
  | mk D ts hne hleaf hlt hsub ih =>
    rw [verify_node h D (by omega)]
    refine verifyLinks_ok h D ts 0 ?_ ?_ ?_
    · intro i t hi him
      obtain ⟨d, rfl⟩ := hleaf i t hi (by omega)
      exact verify_leaf h d (limL_getElem hl hi)
    · intro i t hi hmi _
      have := hlt i t hi (by omega)
      simp only [Nat.zero_add]
      unfold depthRepeat at this
      omega
    · intro i t hi hmi
      simp only [Nat.zero_add] at hmi ⊢
      exact ih i t hi hmi (limL_getElem hl hi) (Nat.succ_ne_zero _)

theorem RootOK.verify {p : VerifyParams} {c : Cfg} {m : Nat} (h : Fits p c m) {ts : List T} (ht : RootOK m ts) (hl : T.LimL ts) :
    Trickle.verify ((T.node ts).toNode c) p = .ok () := by
  unfold Trickle.verify
  rw [verify_node h (-1) (by omega)]
  refine verifyLinks_ok h (-1) ts 0 ?_ ?_ ?_
  · intro i t hi him
    obtain ⟨d, rfl⟩ := ht.1 i t hi (by omega)
    exact verify_leaf h d (limL_getElem hl hi)
  · intro i t hi hmi hd; omega
  · intro i t hi hmi
    simp only [Nat.zero_add] at hmi ⊢
    exact (ht.2 i t hi hmi).verify h (limL_getElem hl hi) (Nat.succ_ne_zero _)

end Unixfs.Import.Trickle
