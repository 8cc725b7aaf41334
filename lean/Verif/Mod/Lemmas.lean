import Verif.Mod.DagModifier
import Verif.Spec.Mod
import Verif.Import.AppendLemmas

/-! # `modifyDag`, `dagTruncate` and `expandSparse` on the level of contents -/

namespace Unixfs.Mod
open Unixfs Unixfs.Import Unixfs.Spec

/-! ### Byte arrays -/

theorem writeInto_length {d : Bytes} {off : Nat} {buf : Bytes} (h : off ≤ d.length) : (writeInto d off buf).1.length = d.length := by
  simp [writeInto]; omega

theorem writeInto_nil (d : Bytes) (off : Nat) : writeInto d off [] = (d, []) := by
  simp [writeInto]

theorem writeInto_end (d : Bytes) (buf : Bytes) : writeInto d d.length buf = (d, buf) := by
  simp [writeInto]

/-- Written over a concatenation, starting in the first part. -/
theorem writeInto_left (a b : Bytes) (off : Nat) (buf : Bytes) (h : off ≤ a.length) :
    writeInto (a ++ b) off buf =
      ((writeInto a off buf).1 ++ (writeInto b 0 (writeInto a off buf).2).1, (writeInto b 0 (writeInto a off buf).2).2) := by
  unfold writeInto
  simp only [List.length_append, List.take_append_of_le_length h, List.take_zero, List.nil_append, Nat.sub_zero, Nat.zero_add]
  refine Prod.ext ?_ ?_
  · simp only [List.append_assoc]
    congr 1
    rw [show a.length + b.length - off = (a.length - off) + b.length by omega, List.take_add, List.append_assoc]
    congr 1
    simp only [List.length_append, List.length_take, List.length_drop, List.drop_append]
    by_cases hb : a.length - off ≤ buf.length
    · have h1 : off + (min (a.length - off) buf.length + min b.length (buf.length - (a.length - off))) =
          a.length + min b.length (buf.length - (a.length - off)) := by omega
      rw [h1, List.drop_of_length_le (l := a) (by omega), List.drop_of_length_le (l := a) (by omega)]
      simp
    · have h1 : List.drop (a.length - off) buf = [] := List.drop_of_length_le (by omega)
      rw [h1]
      simp only [List.take_nil, List.nil_append]
      rw [show off + (min (a.length - off) buf.length + min b.length (buf.length - (a.length - off))) = off + min (a.length - off) buf.length by omega]
      congr 1
      rw [show off + min (a.length - off) buf.length - a.length = 0 by omega,
        show min b.length (buf.length - (a.length - off)) = 0 by omega]
  · simp only [List.drop_drop]; congr 1; omega

/-- Written over a concatenation, starting in the second part. -/
theorem writeInto_right (a b : Bytes) (off : Nat) (buf : Bytes) (h : a.length ≤ off) :
    writeInto (a ++ b) off buf = (a ++ (writeInto b (off - a.length) buf).1, (writeInto b (off - a.length) buf).2) := by
  unfold writeInto
  simp only [List.length_append]
  rw [show a.length + b.length - off = b.length - (off - a.length) by omega, List.take_append, List.drop_append,
    List.take_of_length_le h, List.drop_of_length_le (by omega)]
  simp only [List.nil_append, List.append_assoc]
  rw [show off + (List.take (b.length - (off - a.length)) buf).length - a.length =
    off - a.length + (List.take (b.length - (off - a.length)) buf).length by omega]

/-- What was written over the old bytes plus what did not fit is the overlay. -/
theorem writeInto_overlay (c : Bytes) (off : Nat) (buf : Bytes) (h : off ≤ c.length) :
    (writeInto c off buf).1 ++ (writeInto c off buf).2 = overlay c off buf := by
  unfold writeInto overlay zeros
  rw [show off - c.length = 0 by omega]
  simp only [List.replicate_zero, List.append_nil, List.append_assoc]
  congr 1
  by_cases hb : buf.length ≤ c.length - off
  · rw [List.take_of_length_le hb, List.drop_of_length_le hb]; simp
  · rw [List.length_take, List.drop_of_length_le (l := c) (by omega), List.drop_of_length_le (l := c) (by omega)]
    simp [List.take_append_drop]

/-- Zero-filling up to the offset first changes nothing. -/
theorem overlay_resize (c : Bytes) (off : Nat) (buf : Bytes) (h : c.length ≤ off) : overlay (c ++ zeros (off - c.length)) off buf = overlay c off buf := by
  unfold overlay zeros
  have : (c ++ List.replicate (off - c.length) (0 : UInt8)).length = off := by simp; omega
  rw [this, List.take_of_length_le (by omega), List.drop_of_length_le (by rw [this]; omega), List.take_of_length_le h, List.drop_of_length_le (l := c) (by omega)]
  simp

/-! ### Zero chunks -/

theorem zeroChunksFuel_flatten : ∀ (fuel n : Nat), n ≤ fuel → (zeroChunksFuel fuel n).flatten = zeros n
  | 0, n, h => by obtain rfl : n = 0 := by omega
                  rfl
  | fuel + 1, n, h => by
    unfold zeroChunksFuel
    split
    · subst_vars; rfl
    · rename_i h0
      have e : min n 4096 + (n - 4096) = n := by omega
      rw [List.flatten_cons, zeroChunksFuel_flatten fuel (n - 4096) (by omega)]
      unfold zeros
      rw [List.replicate_append_replicate, e]

theorem zeroChunks_flatten (n : Nat) : (zeroChunks n).flatten = zeros n := zeroChunksFuel_flatten n n (Nat.le_refl _)

theorem zeroChunksFuel_fit : ∀ (fuel n : Nat), ∀ c ∈ zeroChunksFuel fuel n, c.length ≤ 4096
  | 0, n => by simp [zeroChunksFuel]
  | fuel + 1, n => by
    unfold zeroChunksFuel
    split
    · simp
    · intro c hc
      rcases List.mem_cons.mp hc with rfl | hc
      · rw [List.length_replicate]; exact Nat.min_le_right _ _
      · exact zeroChunksFuel_fit fuel _ c hc

theorem zeroChunks_fit (n : Nat) : AllFit (zeroChunks n) := fun c hc => by
  have := zeroChunksFuel_fit n n c hc; omega

end Unixfs.Mod
