import Verif.Import.FailSame
import Verif.Mod.Lemmas
import Verif.Spec.ModFile

/-! # What a failed `Append` inside a modifier leaves behind (C99)

The definitions in this file belong to proofs; they model no code.
-/

namespace Unixfs.Mod
open Unixfs.Spec Unixfs.Import

variable {env : Env}

/-- The builder of a call of `Append` inside a modifier. -/
def DM.builder (env : Env) (dm : DM) (chunks : List Bytes) (fin : Option Err) : DB :=
  { maxlinks := defaultLinksPerBlock, rawLeaves := dm.rawLeaves, cidBuilder := some dm.pfx, src := chunks, srcEnd := fin,
    addBudget := env.budget dm.svc.tick, canGet := env.get dm.svc.tick }

/-- A failed `appendData`: either nothing happened, or `Append` failed. -/
theorem appendData_error {dm : DM} {chunks : List Bytes} {fin : Option Err} {e : Err} {svc' : Svc} (h : dm.appendData env chunks fin = (.error e, svc')) :
    (svc' = dm.svc ∧ dm.appendLeft env chunks fin = (dm.cur, []) ∧ ∃ d, dm.cur = .other d) ∨
    ∃ db', Trickle.appendF (chunks.length + 1) (height dm.cur + 1) dm.cur (dm.builder env chunks fin) = (.error e, (dm.appendLeft env chunks fin).1, db') ∧
      svc' = { tick := dm.svc.tick + 1, stored := dm.svc.stored ++ db'.added.map Built.node } := by
  unfold DM.appendData at h
  split at h
  · next d hc =>
    cases h
    refine .inl ⟨rfl, ?_, d, hc⟩
    unfold DM.appendLeft
    rw [hc]
  · next hc =>
    have hn : ({ maxlinks := defaultLinksPerBlock, rawLeaves := dm.rawLeaves, cidBuilder := some dm.pfx } : Params).new none chunks fin =
        .ok { maxlinks := defaultLinksPerBlock, rawLeaves := dm.rawLeaves, cidBuilder := some dm.pfx, src := chunks, srcEnd := fin } := rfl
    rw [hn] at h
    have hl : ∀ r, Trickle.appendF (chunks.length + 1) (height dm.cur + 1) dm.cur (dm.builder env chunks fin) = r →
        dm.appendLeft env chunks fin = (r.2.1, r.2.2.added.map Built.node) := by
      intro r hr
      unfold DM.appendLeft
      split
      · next d hd => exact absurd hd (hc d)
      · rw [hn]
        dsimp only
        rw [← hr]
        rfl
    rcases hF : Trickle.appendF (chunks.length + 1) (height dm.cur + 1) dm.cur (dm.builder env chunks fin) with ⟨r, n, db'⟩
    have hl := hl _ hF
    have he := Trickle.appendF_eq (chunks.length + 1) (height dm.cur + 1) dm.cur (dm.builder env chunks fin)
    rw [hF] at he
    dsimp only at h
    rw [show ({ maxlinks := defaultLinksPerBlock, rawLeaves := dm.rawLeaves, cidBuilder := some dm.pfx, src := chunks, srcEnd := fin, addBudget := env.budget dm.svc.tick, canGet := env.get dm.svc.tick } : DB) = dm.builder env chunks fin from rfl, ← he] at h
    cases r with
    | error e' =>
      simp only [Import.okNode] at h
      cases h
      refine .inr ⟨db', ?_, ?_⟩
      · rw [hl]
      · rw [hl]
    | ok u => simp only [Import.okNode] at h; cases h

/-- An extension with zeros that fails leaves the node as it was, if the DAG service refuses no block. -/
theorem left_zeros (hb : AppendsStored env) {dm : DM} {size : Nat} {e : Err} {svc' : Svc} (h : dm.appendData env (zeroChunks size) none = (.error e, svc')) :
    (dm.appendLeft env (zeroChunks size) none).1 = dm.cur := by
  rcases appendData_error h with ⟨_, h, _⟩ | ⟨db', h, _⟩
  · rw [h]
  · rcases Trickle.appendF_same h (show 0 < defaultLinksPerBlock by decide) (fun h => by cases h) with h | (⟨_, c, hc, hl⟩ | h | ⟨_, h⟩) | ⟨_, h⟩
    · exact h
    · exact absurd (zeroChunks_fit size c hc) (Nat.not_le.mpr hl)
    · cases h
    · exact absurd (hb _) h
    · simp only [DB.pend, DM.builder, Option.toList, List.nil_append] at h
      omega

end Unixfs.Mod
