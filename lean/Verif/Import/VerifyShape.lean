import Verif.Spec.TrickleShape
import Verif.Import.Trickle

/-! # `VerifyTrickleDagStructure` against the trickle layout (C100)

This file contains proofs only.
-/

namespace Unixfs.Import.Trickle
open Unixfs.Spec

variable {p : VerifyParams}

theorem prefixOK_iff {n : Node} {b : Builder} {codec : Nat} (hn : cidPrefix n = some b) : prefixOK p n codec = true ↔ HasPrefix p codec b := by
  unfold prefixOK HasPrefix
  cases hp : p.pfx with
  | none => simp
  | some e =>
    dsimp only
    rw [hn, beq_iff_eq, Option.some.injEq]
    constructor
    · rintro h e' he
      cases he
      by_cases hc : codec = 0x55 ∧ e.version = 0
      · rw [if_pos hc]
        rw [if_pos (show codec = Builder.rawCodec ∧ _ from hc)] at h
        rw [h]; exact ⟨rfl, rfl, rfl, rfl⟩
      · rw [if_neg hc]
        rw [if_neg (show ¬(codec = Builder.rawCodec ∧ _) from hc)] at h
        rw [h]; exact ⟨rfl, rfl, rfl, rfl⟩
    · intro h
      obtain ⟨h1, h2, h3, h4⟩ := h e rfl
      obtain ⟨v, c, t, l⟩ := b
      dsimp only at h1 h2 h3 h4
      rw [h1, h2, h3, h4]
      by_cases hc : codec = 0x55 ∧ e.version = 0
      · rw [if_pos hc, if_pos (show codec = Builder.rawCodec ∧ _ from hc)]
      · rw [if_neg hc, if_neg (show ¬(codec = Builder.rawCodec ∧ _) from hc)]

theorem typ_iff {d : Bytes} {m : Pb.Data} (hm : Pb.Data.unmarshal d = .ok m) (t : UInt32) : m.getType = t ↔ m.typ = some t := by
  unfold Pb.Data.getType
  have : m.typ.isSome = true := by
    unfold Pb.Data.unmarshal at hm
    split at hm
    · cases hm
    · split at hm
      · cases hm
      · next h => cases hm; cases hx : m.typ <;> simp_all
  cases hx : m.typ with
  | none => rw [hx] at this; cases this
  | some x => simp

theorem leaf_iff (n : Node) : verifyRec p n 0 = .ok () ↔ TrickleLeaf p n := by
  unfold verifyRec
  rw [if_pos rfl]
  cases n with
  | other d =>
    constructor
    · intro h; simp [Node.links] at h
    · intro h; cases h
  | raw d b =>
    simp only [Node.links, List.isEmpty_nil, if_true]
    constructor
    · intro h
      split at h
      · cases h
      · next hr =>
        split at h
        · next hp => exact .raw (by simpa using hr) ((prefixOK_iff rfl).mp hp)
        · cases h
    · rintro (⟨hr, hp⟩ | _)
      rw [if_neg (by simp [hr]), if_pos ((prefixOK_iff (n := .raw d b) (codec := Builder.rawCodec) rfl).mpr hp)]
  | proto d ls b =>
    cases ls with
    | cons l ls =>
      constructor
      · intro h; simp [Node.links] at h
      · intro h; cases h
    | nil =>
      simp only [Node.links, List.isEmpty_nil, if_true]
      constructor
      · intro h
        unfold FSNode.fromBytes at h
        cases hm : Pb.Data.unmarshal d with
        | error e => rw [hm] at h; cases h
        | ok m =>
          rw [hm] at h
          dsimp only at h
          split at h
          · cases h
          · next ht =>
            split at h
            · cases h
            · next hr =>
              split at h
              · next hp => exact .proto (by simpa using hr) ((prefixOK_iff rfl).mp hp) hm ((typ_iff hm _).mp (by simpa [FSNode.type] using ht))
              · cases h
      · intro h
        cases h with
        | proto hr hp hm ht =>
          unfold FSNode.fromBytes
          rw [hm]
          dsimp only
          rw [if_neg (by simp only [FSNode.type, not_not]; exact (typ_iff hm _).mpr ht), if_neg (by simp [hr]), if_pos ((prefixOK_iff (n := .proto d [] b) rfl).mpr hp)]

/-- Is the depth the one that the specification speaks of? -/
theorem below_iff {D : Option Nat} {depth : Int} (hD : depth = (match D with | none => -1 | some k => (k : Int))) (h0 : depth ≠ 0) (r : Nat) :
    (¬((r : Int) ≥ depth ∧ depth > 0)) ↔ ∀ k, D = some k → r < k := by
  cases D with
  | none => simp only at hD; subst hD; simp
  | some k =>
    simp only at hD
    subst hD
    constructor
    · intro h k' hk
      cases hk
      omega
    · intro h
      have := h k rfl
      omega

mutual
theorem dag_iff (hr : p.layerRepeat ≠ 0) : ∀ (n : Node) (D : Option Nat) (depth : Int), depth = (match D with | none => -1 | some k => (k : Int)) → depth ≠ 0 →
    (verifyRec p n depth = .ok () ↔ TrickleDag p D n)
  | .other d, D, depth, _, h0 => by
    unfold verifyRec
    rw [if_neg h0]
    constructor
    · intro h; split at h <;> cases h
    · intro h; cases h
  | .raw d b, D, depth, _, h0 => by
    unfold verifyRec
    rw [if_neg h0]
    constructor
    · intro h; split at h <;> cases h
    · intro h; cases h
  | .proto d ls b, D, depth, hD, h0 => by
    have hL := links_iff hr ls D depth 0 hD h0
    unfold verifyRec
    rw [if_neg h0]
    constructor
    · intro h
      split at h
      · cases h
      · next hp =>
        unfold FSNode.fromBytes at h
        dsimp only at h
        cases hm : Pb.Data.unmarshal d with
        | error e => rw [hm] at h; cases h
        | ok m =>
          rw [hm] at h
          dsimp only at h
          split at h
          · cases h
          · next ht =>
            split at h
            · cases h
            · next hd =>
              obtain ⟨h1, h2, h3, h4⟩ := hL.mp h
              simp only [Nat.zero_add] at h2 h3 h4
              refine .mk ((prefixOK_iff rfl).mp (by simpa using hp)) hm ((typ_iff hm _).mp (by simpa [FSNode.type] using ht)) ?_ h1 h2 h3 h4
              simp only [FSNode.data, Pb.Data.getData, gt_iff_lt, not_lt, Nat.le_zero, List.length_eq_zero_iff] at hd
              exact hd
    · intro h
      cases h with
      | mk hp hm ht hd h1 h2 h3 h4 =>
        rw [if_neg (by simp only [not_not]; exact (prefixOK_iff (n := .proto d ls b) rfl).mpr hp)]
        unfold FSNode.fromBytes
        dsimp only
        rw [hm]
        dsimp only
        rw [if_neg (by simp only [FSNode.type, not_not]; exact (typ_iff hm _).mpr ht), if_neg (by simp only [FSNode.data, Pb.Data.getData, hd]; simp)]
        exact hL.mpr ⟨h1, by simpa using h2, by simpa using h3, by simpa using h4⟩
theorem links_iff (hr : p.layerRepeat ≠ 0) : ∀ (ls : List Link) (D : Option Nat) (depth : Int) (s : Nat), depth = (match D with | none => -1 | some k => (k : Int)) → depth ≠ 0 →
    (verifyLinks p ls s depth = .ok () ↔
      (∀ l ∈ ls, p.canGet l.target = true) ∧ (∀ i l, ls[i]? = some l → s + i < p.direct → TrickleLeaf p l.target) ∧
      (∀ i l k, ls[i]? = some l → p.direct ≤ s + i → D = some k → layerOf p (s + i) < k) ∧
      (∀ i l, ls[i]? = some l → p.direct ≤ s + i → TrickleDag p (some (layerOf p (s + i))) l.target))
  | [], D, depth, s, _, _ => by simp [verifyLinks]
  | .mk nm sz child :: ls, D, depth, s, hD, h0 => by
    have ih := links_iff hr ls D depth (s + 1) hD h0
    have hC := dag_iff hr child (some (layerOf p s)) (layerOf p s : Int) rfl (Int.natCast_ne_zero.mpr (Nat.succ_ne_zero _))
    have hlf := leaf_iff (p := p) child
    have split : ((∀ l ∈ (.mk nm sz child :: ls : List Link), p.canGet l.target = true) ∧ (∀ i l, (.mk nm sz child :: ls : List Link)[i]? = some l → s + i < p.direct → TrickleLeaf p l.target) ∧
        (∀ i l k, (.mk nm sz child :: ls : List Link)[i]? = some l → p.direct ≤ s + i → D = some k → layerOf p (s + i) < k) ∧
        (∀ i l, (.mk nm sz child :: ls : List Link)[i]? = some l → p.direct ≤ s + i → TrickleDag p (some (layerOf p (s + i))) l.target)) ↔
        (p.canGet child = true ∧ (s < p.direct → TrickleLeaf p child) ∧ (p.direct ≤ s → (∀ k, D = some k → layerOf p s < k) ∧ TrickleDag p (some (layerOf p s)) child)) ∧
        ((∀ l ∈ ls, p.canGet l.target = true) ∧ (∀ i l, ls[i]? = some l → s + 1 + i < p.direct → TrickleLeaf p l.target) ∧
        (∀ i l k, ls[i]? = some l → p.direct ≤ s + 1 + i → D = some k → layerOf p (s + 1 + i) < k) ∧
        (∀ i l, ls[i]? = some l → p.direct ≤ s + 1 + i → TrickleDag p (some (layerOf p (s + 1 + i))) l.target)) := by
      constructor
      · rintro ⟨h1, h2, h3, h4⟩
        refine ⟨⟨h1 (.mk nm sz child) (by simp), fun h => h2 0 _ rfl (by simpa using h), fun h => ⟨fun k hk => h3 0 _ k rfl (by simpa using h) hk, h4 0 _ rfl (by simpa using h)⟩⟩,
          fun l hl => h1 l (by simp [hl]), ?_, ?_, ?_⟩
        · intro i l hl h
          exact h2 (i + 1) l (by simpa using hl) (by omega)
        · intro i l k hl h hk
          have := h3 (i + 1) l k (by simpa using hl) (by omega) hk
          rwa [show s + (i + 1) = s + 1 + i by omega] at this
        · intro i l hl h
          have := h4 (i + 1) l (by simpa using hl) (by omega)
          rwa [show s + (i + 1) = s + 1 + i by omega] at this
      · rintro ⟨⟨a1, a2, a3⟩, h1, h2, h3, h4⟩
        refine ⟨?_, ?_, ?_, ?_⟩
        · intro l hl
          rcases List.mem_cons.mp hl with rfl | hl
          · exact a1
          · exact h1 l hl
        · intro i l hl h
          cases i with
          | zero => simp only [List.getElem?_cons_zero, Option.some.injEq] at hl; subst hl; exact a2 (by omega)
          | succ i => exact h2 i l (by simpa using hl) (by omega)
        · intro i l k hl h hk
          cases i with
          | zero => exact (a3 (by omega)).1 k hk
          | succ i =>
            rw [show s + (i + 1) = s + 1 + i by omega]
            exact h3 i l k (by simpa using hl) (by omega) hk
        · intro i l hl h
          cases i with
          | zero => simp only [List.getElem?_cons_zero, Option.some.injEq] at hl; subst hl; exact (a3 (by omega)).2
          | succ i =>
            rw [show s + (i + 1) = s + 1 + i by omega]
            exact h4 i l (by simpa using hl) (by omega)
    rw [split, ← ih, verifyLinks]
    by_cases hg : p.canGet child = true
    · rw [if_neg (by simp [hg])]
      by_cases hs : s < p.direct
      · rw [if_pos hs]
        cases hv : verifyRec p child 0 with
        | error e =>
          constructor
          · intro h; cases h
          · rintro ⟨⟨_, h, _⟩, _⟩
            rw [hlf.mpr (h hs)] at hv
            cases hv
        | ok u =>
          dsimp only
          exact ⟨fun h => ⟨⟨hg, fun _ => hlf.mp hv, fun h => absurd h (by omega)⟩, h⟩, fun h => h.2⟩
      · rw [if_neg hs, if_neg hr]
        simp only
        have hb := below_iff hD h0 (layerOf p s)
        by_cases hd : (layerOf p s : Int) ≥ depth ∧ depth > 0
        · rw [if_pos (show (((s - p.direct) / p.layerRepeat + 1 : Nat) : Int) ≥ depth ∧ depth > 0 from hd)]
          constructor
          · intro h; cases h
          · rintro ⟨⟨_, _, h⟩, _⟩
            exact absurd hd (hb.mpr (h (by omega)).1)
        · rw [if_neg (show ¬((((s - p.direct) / p.layerRepeat + 1 : Nat) : Int) ≥ depth ∧ depth > 0) from hd)]
          cases hv : verifyRec p child (((s - p.direct) / p.layerRepeat + 1 : Nat) : Int) with
          | error e =>
            constructor
            · intro h; cases h
            · rintro ⟨⟨_, _, h⟩, _⟩
              have : verifyRec p child (((s - p.direct) / p.layerRepeat + 1 : Nat) : Int) = .ok () := hC.mpr (h (by omega)).2
              rw [this] at hv
              cases hv
          | ok u =>
            dsimp only
            exact ⟨fun h => ⟨⟨hg, fun h => absurd h hs, fun _ => ⟨hb.mp hd, hC.mp hv⟩⟩, h⟩, fun h => h.2⟩
    · rw [if_pos (by simpa using hg)]
      constructor
      · intro h; cases h
      · rintro ⟨⟨h, _⟩, _⟩
        exact absurd h hg
end

end Unixfs.Import.Trickle
