import Verif.Basic
import Mathlib.Data.List.Basic

/-!
# `github.com/ipfs/go-bitfield` v1.1.0

The source of this dependency is not in the sandbox; the definitions follow its published code. Bit
`i` lives in byte `len - i/8 - 1`, position `i % 8`.
-/

namespace Unixfs.Hamt

/-- `NewBitfield(size)` for a size that is a multiple of 8. Called at hamt/hamt.go:788. -/
def bfNew (size : Nat) : Bytes := List.replicate (size / 8) 0

/-- `Bit(i)`. Out of range is a Go panic; `false` here. The HAMT only asks for `i < size`.
Called at hamt/hamt.go:924. -/
def bfBit (bf : Bytes) (i : Nat) : Bool :=
  match bf[bf.length - i / 8 - 1]? with
  | none => false
  | some b => (b.toNat / 2 ^ (i % 8)) % 2 = 1

/-- `SetBit(i)`. Called at hamt/hamt.go:840. -/
def bfSet (bf : Bytes) (i : Nat) : Bytes := bf.modify (bf.length - i / 8 - 1) (fun b => b ||| UInt8.ofNat (2 ^ (i % 8)))

/-- `UnsetBit(i)`. Called at hamt/hamt.go:868. -/
def bfUnset (bf : Bytes) (i : Nat) : Bytes := bf.modify (bf.length - i / 8 - 1) (fun b => b &&& ~~~(UInt8.ofNat (2 ^ (i % 8))))

/-- `bits.OnesCount8`. Inside `OnesBefore`, called at hamt/hamt.go:812. -/
def onesCount8 (b : UInt8) : Nat := ((List.range 8).filter (fun j => (b.toNat / 2 ^ j) % 2 = 1)).length

/-- `OnesBefore(i)`: the count in the byte of bit `i`, shifted so that only lower bits stay, plus the
counts of the bytes after it. In Go a shift of a byte by 8 gives 0. Called at hamt/hamt.go:812. -/
def bfOnesBefore (bf : Bytes) (i : Nat) : Nat :=
  onesCount8 (UInt8.ofNat ((bf[bf.length - i / 8 - 1]?.getD 0).toNat <<< (8 - i % 8)))
    + ((bf.drop (bf.length - i / 8 - 1 + 1)).map onesCount8).sum

/-- `Bytes()`: leading zero bytes removed; nil if nothing is left. Called at hamt/hamt.go:222. -/
def bfBytes : Bytes → Option Bytes
  | [] => none
  | b :: bs => if b ≠ 0 then some (b :: bs) else bfBytes bs

/-- `SetBytes(b)`: copy to the end of the bitfield; a longer `b` is cut. Called at hamt/hamt.go:801. -/
def bfSetBytes (bf b : Bytes) : Bytes :=
  bf.take (bf.length - b.length) ++ b.take bf.length

/-! ### Lemmas -/

/-- The bits of `bf` (a bitfield for `size` indices) are exactly the indices in `l`.
Used in specifications and proofs only. -/
structure IsBf (size : Nat) (bf : Bytes) (l : List Nat) : Prop where
  len : bf.length * 8 = size
  bit : ∀ i < size, bfBit bf i = decide (i ∈ l)

theorem byte_or : ∀ b < 256, ∀ i < 8, ∀ j < 8,
    decide (((UInt8.ofNat b ||| UInt8.ofNat (2 ^ i)).toNat / 2 ^ j) % 2 = 1) = (decide (j = i) || decide ((b / 2 ^ j) % 2 = 1)) := by
  decide +kernel

theorem byte_andnot : ∀ b < 256, ∀ i < 8, ∀ j < 8,
    decide (((UInt8.ofNat b &&& ~~~(UInt8.ofNat (2 ^ i))).toNat / 2 ^ j) % 2 = 1) = (decide (j ≠ i) && decide ((b / 2 ^ j) % 2 = 1)) := by
  decide +kernel

theorem byte_before : ∀ b < 256, ∀ i < 8,
    onesCount8 (UInt8.ofNat (b <<< (8 - i))) = ((List.range i).filter (fun j => (b / 2 ^ j) % 2 = 1)).length := by
  decide +kernel

theorem byte_sum : ∀ b < 256, b = ((List.range 8).map (fun j => b / 2 ^ j % 2 * 2 ^ j)).sum := by decide +kernel

theorem byte_ext (b : Nat) (hb : b < 256) (c : Nat) (hc : c < 256) (h : ∀ j < 8, (b / 2 ^ j % 2 = 1) = (c / 2 ^ j % 2 = 1)) : b = c := by
  rw [byte_sum b hb, byte_sum c hc]
  congr 1
  apply List.map_congr_left
  intro j hj
  have h1 := h j (List.mem_range.mp hj)
  have h2 : b / 2 ^ j % 2 = c / 2 ^ j % 2 := by
    have := Nat.mod_two_eq_zero_or_one (b / 2 ^ j)
    have := Nat.mod_two_eq_zero_or_one (c / 2 ^ j)
    simp only [eq_iff_iff] at h1
    omega
  rw [h2]

theorem bfBit_new (size i : Nat) : bfBit (bfNew size) i = false := by
  rw [bfBit]
  cases h : (bfNew size)[(bfNew size).length - i / 8 - 1]? with
  | none => rfl
  | some b =>
    have := List.mem_of_getElem? h
    rw [bfNew, List.mem_replicate] at this
    simp [this.2]

theorem isBf_new {size : Nat} (h : 8 ∣ size) : IsBf size (bfNew size) [] :=
  ⟨by simp [bfNew]; omega, fun i _ => by simp [bfBit_new]⟩

theorem bf_idx_inj {n i j : Nat} (hi : i < n * 8) (hj : j < n * 8) (h : n - i / 8 - 1 = n - j / 8 - 1) : i / 8 = j / 8 := by omega

theorem isBf_set {size : Nat} {bf : Bytes} {l l' : List Nat} {i : Nat} (h : IsBf size bf l) (hi : i < size) (hl : ∀ j, j ∈ l' ↔ j = i ∨ j ∈ l) :
    IsBf size (bfSet bf i) l' := by
  refine ⟨by simp [bfSet, h.len], fun j hj => ?_⟩
  have hb := h.bit j hj
  have hlen := h.len
  rw [bfBit] at hb ⊢
  simp only [bfSet, List.length_modify]
  rw [List.getElem?_modify]
  have hlt : bf.length - j / 8 - 1 < bf.length := by omega
  rw [List.getElem?_eq_getElem hlt] at hb ⊢
  simp only [Option.map_eq_map, Option.map_some] at hb ⊢
  by_cases he : bf.length - i / 8 - 1 = bf.length - j / 8 - 1
  · have h8 := bf_idx_inj (by omega) (by omega) he
    simp only [if_pos he]
    have := byte_or (bf[bf.length - j / 8 - 1]).toNat (UInt8.toNat_lt _) (i % 8) (by omega) (j % 8) (by omega)
    rw [UInt8.ofNat_toNat] at this
    rw [this, hb]
    have : (j % 8 = i % 8) ↔ j = i := by omega
    simp [hl, this]
  · have hne : j ≠ i := by rintro rfl; exact he rfl
    simp only [if_neg he]
    rw [hb]
    simp [hl, hne]

theorem isBf_unset {size : Nat} {bf : Bytes} {l l' : List Nat} {i : Nat} (h : IsBf size bf l) (hi : i < size) (hl : ∀ j, j ∈ l' ↔ j ≠ i ∧ j ∈ l) :
    IsBf size (bfUnset bf i) l' := by
  refine ⟨by simp [bfUnset, h.len], fun j hj => ?_⟩
  have hb := h.bit j hj
  have hlen := h.len
  rw [bfBit] at hb ⊢
  simp only [bfUnset, List.length_modify]
  rw [List.getElem?_modify]
  have hlt : bf.length - j / 8 - 1 < bf.length := by omega
  rw [List.getElem?_eq_getElem hlt] at hb ⊢
  simp only [Option.map_eq_map, Option.map_some] at hb ⊢
  by_cases he : bf.length - i / 8 - 1 = bf.length - j / 8 - 1
  · have h8 := bf_idx_inj (by omega) (by omega) he
    simp only [if_pos he]
    have := byte_andnot (bf[bf.length - j / 8 - 1]).toNat (UInt8.toNat_lt _) (i % 8) (by omega) (j % 8) (by omega)
    rw [UInt8.ofNat_toNat] at this
    rw [this, hb]
    have : (j % 8 ≠ i % 8) ↔ j ≠ i := by omega
    simp [hl, this]
  · have hne : j ≠ i := by rintro rfl; exact he rfl
    simp only [if_neg he]
    rw [hb]
    simp [hl, hne]

/-- Bits of a bitfield, counted from the last byte. -/
theorem bfBit_rev (bf : Bytes) (i : Nat) (h : i < bf.length * 8) :
    bfBit bf i = decide (((bf.reverse[i / 8]?.getD 0).toNat / 2 ^ (i % 8)) % 2 = 1) := by
  rw [bfBit, List.getElem?_reverse (by omega), show bf.length - 1 - i / 8 = bf.length - i / 8 - 1 by omega,
    List.getElem?_eq_getElem (by omega)]
  rfl

theorem onesBefore_rev (r : Bytes) : ∀ i, i ≤ r.length * 8 →
    ((r.take (i / 8)).map onesCount8).sum + ((List.range (i % 8)).filter (fun j => ((r[i / 8]?.getD 0).toNat / 2 ^ j) % 2 = 1)).length
      = ((List.range i).filter (fun j => ((r[j / 8]?.getD 0).toNat / 2 ^ (j % 8)) % 2 = 1)).length := by
  intro i
  induction i with
  | zero => simp
  | succ i ih =>
    intro h
    rw [List.range_succ, List.filter_append, List.length_append, ← ih (by omega)]
    by_cases h7 : i % 8 = 7
    · have e1 : (i + 1) / 8 = i / 8 + 1 := by omega
      have e2 : (i + 1) % 8 = 0 := by omega
      have hlt : i / 8 < r.length := by omega
      rw [e1, e2, h7, List.take_add_one, List.getElem?_eq_getElem hlt]
      simp only [List.map_append, List.sum_append, Option.toList_some, List.map_cons, List.map_nil, List.sum_cons, List.sum_nil,
        Option.getD_some, List.range_zero, List.filter_nil, List.length_nil, Nat.add_zero]
      rw [onesCount8, List.range_succ, List.filter_append, List.length_append, List.filter_singleton, List.filter_singleton, h7,
        List.getElem?_eq_getElem hlt]
      simp only [Option.getD_some]
      cases decide ((r[i / 8]).toNat / 2 ^ 7 % 2 = 1) <;> simp only [cond_true, cond_false, List.length_cons, List.length_nil] <;> omega
    · have e1 : (i + 1) / 8 = i / 8 := by omega
      have e2 : (i + 1) % 8 = i % 8 + 1 := by omega
      rw [e1, e2, List.range_succ, List.filter_append, List.length_append, List.filter_singleton, List.filter_singleton]
      cases decide ((r[i / 8]?.getD 0).toNat / 2 ^ (i % 8) % 2 = 1) <;> simp only [cond_true, cond_false, List.length_cons, List.length_nil] <;> omega

theorem onesBefore_eq {size : Nat} {bf : Bytes} {l : List Nat} {i : Nat} (h : IsBf size bf l) (hi : i < size) :
    bfOnesBefore bf i = ((List.range i).filter (· ∈ l)).length := by
  have hlen := h.len
  have h1 : bf.length - i / 8 - 1 < bf.length := by omega
  have e1 : (List.range i).filter (· ∈ l) = (List.range i).filter (fun j => ((bf.reverse[j / 8]?.getD 0).toNat / 2 ^ (j % 8)) % 2 = 1) := by
    apply List.filter_congr
    intro j hj
    rw [List.mem_range] at hj
    rw [← h.bit j (by omega), bfBit_rev bf j (by omega)]
  rw [e1, ← onesBefore_rev _ _ (by simp; omega), bfOnesBefore]
  have e2 : bf.reverse[i / 8]? = bf[bf.length - i / 8 - 1]? := by
    rw [List.getElem?_reverse (by omega)]
    congr 1
    omega
  rw [e2, List.getElem?_eq_getElem h1]
  simp only [Option.getD_some]
  rw [byte_before _ (UInt8.toNat_lt _) _ (by omega), Nat.add_comm]
  congr 1
  rw [List.take_reverse, List.map_reverse, List.sum_reverse, show bf.length - i / 8 - 1 + 1 = bf.length - i / 8 by omega]

/-- A bitfield is determined by its bits. -/
theorem isBf_ext {size : Nat} {a b : Bytes} {l l' : List Nat} (ha : IsBf size a l) (hb : IsBf size b l') (h : ∀ i < size, i ∈ l ↔ i ∈ l') : a = b := by
  have h1 := ha.len
  have h2 := hb.len
  apply List.ext_getElem (by omega)
  intro k hk hk'
  apply UInt8.toNat_inj.mp
  apply byte_ext _ (UInt8.toNat_lt _) _ (UInt8.toNat_lt _)
  intro j hj
  have hi : (a.length - 1 - k) * 8 + j < size := by omega
  have x1 := ha.bit _ hi
  have x2 := hb.bit _ hi
  rw [bfBit] at x1 x2
  have e1 : a.length - ((a.length - 1 - k) * 8 + j) / 8 - 1 = k := by omega
  have e2 : b.length - ((a.length - 1 - k) * 8 + j) / 8 - 1 = k := by omega
  have e3 : ((a.length - 1 - k) * 8 + j) % 8 = j := by omega
  rw [e1, List.getElem?_eq_getElem hk] at x1
  rw [e2, List.getElem?_eq_getElem hk'] at x2
  simp only [e3] at x1 x2
  have hiff := h _ hi
  simp only [eq_iff_iff]
  rw [← decide_eq_true_iff (p := _ = _), x1, ← decide_eq_true_iff (p := (b[k].toNat / 2 ^ j) % 2 = 1), x2]
  simp [hiff]

theorem bfBytes_getD : ∀ bf : Bytes, ∃ k, bf = List.replicate k 0 ++ (bfBytes bf).getD [] := by
  intro bf
  induction bf with
  | nil => exact ⟨0, by simp [bfBytes]⟩
  | cons b bs ih =>
    rw [bfBytes]
    by_cases h : b ≠ 0
    · rw [if_pos h]; exact ⟨0, by simp⟩
    · rw [if_neg h]
      obtain ⟨k, hk⟩ := ih
      have : b = 0 := by simpa using h
      exact ⟨k + 1, by rw [List.replicate_succ, List.cons_append, ← hk, this]⟩

/-- `SetBytes(Bytes())` on a fresh bitfield restores it. -/
theorem bfSetBytes_bytes (size : Nat) (bf : Bytes) (h : bf.length * 8 = size) :
    bfSetBytes (bfNew size) ((bfBytes bf).getD []) = bf := by
  obtain ⟨k, hk⟩ := bfBytes_getD bf
  have hl : bf.length = k + ((bfBytes bf).getD []).length := by
    conv => lhs; rw [hk]
    simp
  rw [bfSetBytes, bfNew]
  simp only [List.length_replicate]
  rw [List.take_of_length_le (l := (bfBytes bf).getD []) (by omega), List.take_replicate]
  conv => rhs; rw [hk]
  congr 2
  omega

end Unixfs.Hamt
