import Verif.Spec.Extend
import Verif.Mod.Left
import Verif.Mod.Any

/-! # Extending and cutting off, with failures (C99)

The definitions in this file belong to proofs; they model no code.
-/

namespace Unixfs.Mod
open Unixfs.Spec Unixfs.Import

variable {env : Env}

/-- A modifier that was only resized, of a file with the bytes `c`. -/
structure Still (c : Bytes) (dm : DM) : Prop where
  buf : dm.buf = none
  read : dm.read = none
  sizes : SizesTrue dm.cur
  cont : content dm.cur = some c
  grow : Growable defaultLinksPerBlock dm.cur

theorem touched_none {dm : DM} (h : dm.read = none) : dm.touched = none := by unfold DM.touched; rw [h]; rfl

theorem Still.size {c : Bytes} {dm : DM} (h : Still c dm) (hl : c.length < 2 ^ 63) : dm.size = .ok (c.length : Int) := by
  unfold DM.size
  rw [fileSize_true h.sizes h.cont, h.buf]
  dsimp only
  rw [s64_of] <;> rw [UInt64.toNat_ofNat'] <;> rw [Nat.mod_eq_of_lt (by omega)]
  exact hl

/-- Extending: all or nothing. -/
theorem Still.expand {c : Bytes} {dm : DM} (hb : AppendsStored env) (h : Still c dm) (n : Nat) :
    Still (c ++ zeros n) (dm.expandSparse env n).2 ∨ (Still c (dm.expandSparse env n).2 ∧ ∃ e, (dm.expandSparse env n).1 = .error e) := by
  have ha := appendData_spec env dm (zeroChunks n) none h.sizes h.cont h.grow
  have hz := @left_zeros env hb dm n
  unfold DM.expandSparse
  rw [Int.toNat_natCast]
  generalize dm.appendData env (zeroChunks n) none = R at ha hz ⊢
  obtain ⟨r, s1⟩ := R
  cases r with
  | error e =>
    refine .inr ⟨?_, e, rfl⟩
    dsimp only
    rw [hz rfl]
    exact ⟨h.buf, touched_none h.read, h.sizes, h.cont, h.grow⟩
  | ok k =>
    obtain ⟨ha, -⟩ := ha
    rw [zeroChunks_flatten] at ha
    exact .inl ⟨h.buf, touched_none h.read, ha.sizes, ha.cont, ha.grow⟩

theorem made_trunc_ge {c : Bytes} {n : Nat} (h : c.length ≤ n) : resize c n = c ++ zeros (n - c.length) := by
  unfold resize; rw [List.take_of_length_le h]

theorem Still.truncate {c : Bytes} {dm : DM} (hb : AppendsStored env) (h : Still c dm) (hl : c.length < 2 ^ 63) (n : Nat) (hn : n < 2 ^ 63) :
    Still (resize c n) (dm.truncate env n).2 ∨ (Still c (dm.truncate env n).2 ∧ ∃ e, (dm.truncate env n).1 = .error e) := by
  unfold DM.truncate
  have hsync : dm.sync env = (.ok (), dm) := by unfold DM.sync; rw [h.buf]
  rw [hsync]
  dsimp only
  rw [h.size hl]
  dsimp only
  by_cases heq : (n : Int) = c.length
  · rw [if_pos heq]
    left
    rw [made_trunc_ge (by omega), show n - c.length = 0 by omega]
    simpa [zeros] using h
  · rw [if_neg heq]
    by_cases hgt : (n : Int) > c.length
    · rw [if_pos hgt, Reader.i64_id (by omega) (by omega), show (n : Int) - (c.length : Int) = ((n - c.length : Nat) : Int) by omega,
        made_trunc_ge (by omega)]
      exact h.expand hb _
    · rw [if_neg hgt]
      have hu : (u64 (n : Int)).toNat = n := by rw [u64_toNat (by omega) (by omega)]; simp
      have hT := dagTruncate_spec env dm.cur (u64 n) dm.svc c h.sizes h.cont (by omega) (by omega)
      have hr : resize c n = c.take n := by unfold resize zeros; rw [show n - c.length = 0 by omega]; simp
      rw [hr]
      rw [hu] at hT
      generalize dagTruncate env dm.cur (u64 n) dm.svc = S at hT ⊢
      obtain ⟨r, s1⟩ := S
      cases r with
      | error e => exact .inr ⟨⟨h.buf, h.read, h.sizes, h.cont, h.grow⟩, e, rfl⟩
      | ok k =>
        dsimp only
        generalize Svc.add env k s1 = S
        obtain ⟨r, s2⟩ := S
        cases r with
        | error e =>
          dsimp only
          by_cases hp : k.isProto
          · left; rw [if_pos hp]; exact ⟨h.buf, touched_none h.read, hT.sizes, hT.cont, hT.grow _ h.grow⟩
          · rw [if_neg hp]; exact .inr ⟨⟨h.buf, touched_none h.read, h.sizes, h.cont, h.grow⟩, e, rfl⟩
        | ok u => exact .inl ⟨h.buf, touched_none h.read, hT.sizes, hT.cont, hT.grow _ h.grow⟩

theorem Still.seek {c : Bytes} {dm : DM} (hb : AppendsStored env) (h : Still c dm) (hl : c.length < 2 ^ 63) (n : Nat) (hn : n < 2 ^ 63) :
    Still (c ++ zeros (n - c.length)) (dm.seek env n 0).2 ∨ (Still c (dm.seek env n 0).2 ∧ ∃ e, (dm.seek env n 0).1 = .error e) := by
  unfold DM.seek
  have hsync : dm.sync env = (.ok (), dm) := by unfold DM.sync; rw [h.buf]
  rw [hsync]
  dsimp only
  rw [h.size hl]
  dsimp only
  have hto : dm.seekTo c.length n 0 = .ok (u64 n) := by simp [DM.seekTo]
  rw [hto]
  dsimp only
  have hs : s64 (u64 (n : Int)) = n := by
    rw [s64_of] <;> rw [u64_toNat (by omega) (by omega)] <;> omega
  rw [hs]
  unfold DM.seekTail
  by_cases hgt : (n : Int) > c.length
  · rw [if_pos hgt, Reader.i64_id (by omega) (by omega), show (n : Int) - (c.length : Int) = ((n - c.length : Nat) : Int) by omega]
    have hE := h.expand hb (n - c.length)
    generalize dm.expandSparse env ((n - c.length : Nat) : Int) = S at hE ⊢
    obtain ⟨r, dm1⟩ := S
    cases r with
    | error e =>
      rcases hE with hE | ⟨hE, -⟩
      · exact .inl hE
      · exact .inr ⟨hE, e, rfl⟩
    | ok u =>
      have hE : Still (c ++ zeros (n - c.length)) dm1 := by
        rcases hE with hE | ⟨_, e, he⟩
        · exact hE
        · cases he
      left
      dsimp only
      rw [hE.read]
      exact ⟨hE.buf, rfl, hE.sizes, hE.cont, hE.grow⟩
  · rw [if_neg hgt]
    left
    dsimp only
    rw [h.read, show n - c.length = 0 by omega]
    simp only [zeros, List.replicate_zero, List.append_nil]
    exact ⟨h.buf, rfl, h.sizes, h.cont, h.grow⟩

theorem made_length {c : Bytes} {op : MOp} (h : Resizes op) (hl : c.length < 2 ^ 63) : (made c op).length < 2 ^ 63 := by
  cases op with
  | truncate s =>
    have := s.toInt_lt
    simp only [made, resize, zeros, List.length_append, List.length_take, List.length_replicate]
    omega
  | seek off w =>
    have := off.toInt_lt
    simp only [made, zeros, List.length_append, List.length_replicate]
    omega
  | _ => exact h.elim

theorem Still.step {c : Bytes} {dm : DM} (hb : AppendsStored env) (h : Still c dm) (hl : c.length < 2 ^ 63) {op : MOp} (ho : Resizes op) :
    Still (made c op) (dm.step env op).2 ∨ (Still c (dm.step env op).2 ∧ (dm.step env op).1.err ≠ none) := by
  cases op with
  | truncate s =>
    have := s.toInt_lt
    have ho : 0 ≤ s.toInt := ho
    simp only [DM.step, made]
    have hT := h.truncate hb hl s.toInt.toNat (by omega)
    rw [show ((s.toInt.toNat : Nat) : Int) = s.toInt by omega] at hT
    rcases hT with hT | ⟨hT, e, he⟩
    · exact .inl hT
    · exact .inr ⟨hT, by rw [he]; simp [MRes.unit]⟩
  | seek off w =>
    obtain ⟨ho, rfl⟩ := ho
    have := off.toInt_lt
    simp only [DM.step, made]
    have hT := h.seek hb hl off.toInt.toNat (by omega)
    rw [show ((off.toInt.toNat : Nat) : Int) = off.toInt by omega] at hT
    rcases hT with hT | ⟨hT, e, he⟩
    · exact .inl hT
    · exact .inr ⟨hT, by rw [he]; simp [MRes.num]⟩
  | _ => exact ho.elim

theorem Still.run (hb : AppendsStored env) : ∀ (ops : List MOp) {c : Bytes} {dm : DM}, Still c dm → c.length < 2 ^ 63 → (∀ o ∈ ops, Resizes o) →
    ∃ d, Still d (dm.run env ops).2 ∧ d.length < 2 ^ 63 ∧ AllOrNothing c (ops.zip (dm.run env ops).1) d
  | [], c, _, h, hl, _ => ⟨c, h, hl, .nil⟩
  | op :: ops, c, dm, h, hl, ho => by
    simp only [DM.run, List.zip_cons_cons]
    rcases h.step hb hl (ho op (by simp)) with h1 | ⟨h1, he⟩
    · obtain ⟨d, h2, h3, h4⟩ := Still.run hb ops h1 (made_length (ho op (by simp)) hl) (fun o h => ho o (by simp [h]))
      exact ⟨d, h2, h3, .did h4⟩
    · obtain ⟨d, h2, h3, h4⟩ := Still.run hb ops h1 hl (fun o h => ho o (by simp [h]))
      exact ⟨d, h2, h3, .not he h4⟩

theorem Still.new {root : Node} {c : Bytes} (hs : SizesTrue root) (hc : content root = some c) (hg : Growable defaultLinksPerBlock root) :
    ∃ dm, newDagModifier root = .ok dm ∧ Still c dm := by
  cases root with
  | proto d ls b => exact ⟨_, rfl, rfl, rfl, hs, hc, hg⟩
  | raw d b => exact ⟨_, rfl, rfl, rfl, hs, hc, hg⟩
  | other d => exact hs.elim

end Unixfs.Mod
