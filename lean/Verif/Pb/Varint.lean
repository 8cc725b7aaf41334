import Verif.Basic
import Mathlib.Tactic.Ring
import Mathlib.Tactic.Linarith

/-!
# Protobuf varints (gogo/protobuf v1.3.2, `proto/encode.go`, `proto/decode.go`)

`/repo` marshals its messages with `proto.Marshal` / `proto.Unmarshal`
(unixfs.go:56,74,94,112,130,149,162,177,215,288,353,362,375,394). The dependency's source is not in
the sandbox; this file models its documented wire format.
-/

namespace Unixfs.Pb

/-- `appendVarint`: little-endian base-128, high bit = continuation. `fuel` bounds the number of
continuation bytes (10 bytes hold any `uint64`).
Dependency gogo/protobuf, reached from pb/unixfs.pb.go:104-109. -/
def encVarintF : Nat → Nat → Bytes
  | 0, n => [UInt8.ofNat (n % 128)]
  | f + 1, n => if n < 128 then [UInt8.ofNat n] else UInt8.ofNat (n % 128 + 128) :: encVarintF f (n / 128)

/-- `appendVarint` for a `uint64` value. Dependency gogo/protobuf, reached from pb/unixfs.pb.go:104-109. -/
def encVarint (n : Nat) : Bytes := encVarintF 9 n

/-- `decodeVarint`: at most 10 bytes, the 10th must be 0 or 1. `i` is the index of the byte.
Returns the value and the remaining bytes; `none` models the returned length 0.
Dependency gogo/protobuf, reached from pb/unixfs.pb.go:104-109. -/
def decVarintF : Nat → Bytes → Option (Nat × Bytes)
  | _, [] => none
  | i, b :: rest =>
    if b.toNat < 128 then
      if i = 9 ∧ 2 ≤ b.toNat then none else some (b.toNat, rest)
    else if i = 9 then none
    else match decVarintF (i + 1) rest with
      | none => none
      | some (v, r) => some ((b.toNat - 128) + 128 * v, r)

/-- `decodeVarint`. Dependency gogo/protobuf, reached from pb/unixfs.pb.go:104-109. -/
def decVarint (b : Bytes) : Option (Nat × Bytes) := decVarintF 0 b

/-! ## Round trip -/

theorem decVarintF_encVarintF (f i n : Nat) (rest : Bytes) (hi : i + f = 9) (hn : n < 2 ^ (7 * f + 1)) :
    decVarintF i (encVarintF f n ++ rest) = some (n, rest) := by
  induction f generalizing i n with
  | zero =>
    have h2 : n < 2 := by simpa using hn
    have : n % 128 = n := Nat.mod_eq_of_lt (by omega)
    have h3 : (UInt8.ofNat n).toNat = n := by
      rw [UInt8.toNat_ofNat']; exact Nat.mod_eq_of_lt (by omega)
    simp only [encVarintF, this, List.cons_append, List.nil_append, decVarintF, h3]
    rw [if_pos (by omega), if_neg (by omega)]
  | succ f ih =>
    unfold encVarintF
    split
    · rename_i hlt
      have h3 : (UInt8.ofNat n).toNat = n := by
        rw [UInt8.toNat_ofNat']; exact Nat.mod_eq_of_lt (by omega)
      simp only [List.cons_append, List.nil_append, decVarintF, h3]
      rw [if_pos hlt, if_neg (by omega)]
    · rename_i hge
      have h3 : (UInt8.ofNat (n % 128 + 128)).toNat = n % 128 + 128 := by
        rw [UInt8.toNat_ofNat']; exact Nat.mod_eq_of_lt (by omega)
      have hq : n / 128 < 2 ^ (7 * f + 1) := by
        rw [Nat.div_lt_iff_lt_mul (by norm_num)]
        calc n < 2 ^ (7 * (f + 1) + 1) := hn
          _ = 2 ^ (7 * f + 1) * 128 := by rw [show 7 * (f + 1) + 1 = (7 * f + 1) + 7 by ring, pow_add]; norm_num
      simp only [List.cons_append, decVarintF, h3]
      rw [if_neg (by omega), if_neg (by omega), ih (i + 1) (n / 128) (by omega) hq]
      simp only [Option.some.injEq, Prod.mk.injEq, and_true]
      omega

/-- Decoding the encoding of any `uint64` returns the value and leaves the rest of the input. -/
theorem decVarint_encVarint (n : Nat) (rest : Bytes) (hn : n < 2 ^ 64) :
    decVarint (encVarint n ++ rest) = some (n, rest) :=
  decVarintF_encVarintF 9 0 n rest rfl (by simpa using hn)

theorem decVarintF_lt (i : Nat) (b r : Bytes) (v : Nat) (hi : i ≤ 9)
    (h : decVarintF i b = some (v, r)) : v < 2 ^ (7 * (9 - i) + 1) := by
  induction b generalizing i v r with
  | nil => simp [decVarintF] at h
  | cons x xs ih =>
    unfold decVarintF at h
    split at h
    · split at h
      · simp at h
      · rename_i h1 h2
        simp only [Option.some.injEq, Prod.mk.injEq] at h
        by_cases h9 : i = 9
        · subst h9; simp; omega
        · have : 2 ^ 8 ≤ 2 ^ (7 * (9 - i) + 1) := Nat.pow_le_pow_right (by norm_num) (by omega)
          omega
    · split at h
      · simp at h
      · rename_i h1 h2
        split at h
        · simp at h
        · rename_i v' r' heq
          simp only [Option.some.injEq, Prod.mk.injEq] at h
          have := ih (i + 1) _ _ (by omega) heq
          have e : 2 ^ (7 * (9 - i) + 1) = 128 * 2 ^ (7 * (9 - (i + 1)) + 1) := by
            rw [show 7 * (9 - i) + 1 = 7 + (7 * (9 - (i + 1)) + 1) by omega, pow_add]; norm_num
          have hx := x.toNat_lt
          omega

theorem decVarint_lt {b r : Bytes} {v : Nat} (h : decVarint b = some (v, r)) : v < 2 ^ 64 := by
  simpa using decVarintF_lt 0 b r v (by omega) h

/-- A decoded varint consumed a non-empty prefix, and decoding only looked at that prefix. -/
theorem decVarintF_local (i : Nat) (b r : Bytes) (v : Nat) (h : decVarintF i b = some (v, r)) :
    ∃ p, p ≠ [] ∧ b = p ++ r ∧ ∀ r', decVarintF i (p ++ r') = some (v, r') := by
  induction b generalizing i v r with
  | nil => simp [decVarintF] at h
  | cons x xs ih =>
    unfold decVarintF at h
    split at h
    · rename_i h1
      split at h
      · simp at h
      · rename_i h2
        simp only [Option.some.injEq, Prod.mk.injEq] at h
        refine ⟨[x], by simp, by simp [h.2], fun r' => ?_⟩
        simp only [List.cons_append, List.nil_append, decVarintF]
        rw [if_pos h1, if_neg h2, h.1]
    · rename_i h1
      split at h
      · simp at h
      · rename_i h2
        split at h
        · simp at h
        · rename_i v' r' heq
          simp only [Option.some.injEq, Prod.mk.injEq] at h
          obtain ⟨p, hp, hb, hl⟩ := ih _ _ _ heq
          refine ⟨x :: p, by simp, by simp [hb, h.2], fun r'' => ?_⟩
          simp only [List.cons_append, decVarintF]
          rw [if_neg h1, if_neg h2, hl r'']
          simp [h.1]

theorem decVarint_local {b r : Bytes} {v : Nat} (h : decVarint b = some (v, r)) :
    ∃ p, p ≠ [] ∧ b = p ++ r ∧ ∀ r', decVarint (p ++ r') = some (v, r') :=
  decVarintF_local 0 b r v h

theorem decVarint_length {b r : Bytes} {v : Nat} (h : decVarint b = some (v, r)) :
    r.length < b.length := by
  obtain ⟨p, hp, hb, _⟩ := decVarint_local h
  have : 0 < p.length := List.length_pos_iff.mpr hp
  simp [hb, this]

theorem encVarint_ne_nil (n : Nat) : encVarint n ≠ [] := by
  simp only [encVarint, encVarintF]; split <;> simp

end Unixfs.Pb
