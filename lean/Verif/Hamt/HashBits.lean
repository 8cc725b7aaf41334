import Verif.Basic
import Mathlib.Tactic.Ring
import Mathlib.Tactic.Positivity

/-!
# `/repo/hamt/util.go`: slicing a hash into indices

The hash function is a parameter of the model (`H : Bytes → Bytes`); `murmur3Hash` (util.go:77-81) is
one instance of it, with 8-byte results.
-/

namespace Unixfs.Hamt

/-- util.go:29-31 `mkmask`: `(1 << n) - 1` in the type `byte`. -/
def mkmask (n : Nat) : UInt8 := UInt8.ofNat (2 ^ n - 1)

/-- util.go:42-64 `next`: the value and the new `consumed`. The first argument bounds the recursion
(one level per byte boundary); `Hamt.next_spec` shows that it is never exhausted. Indexing past the
end of the hash is a Go panic. -/
def next (b : Bytes) : Nat → Nat → Nat → Except Err (Nat × Nat)
  | 0, _, _ => .error .outOfFuel
  | f + 1, consumed, i =>
    let curbi := consumed / 8
    let leftb := 8 - consumed % 8
    match b[curbi]? with
    | none => .error .panic
    | some curb =>
      if i = leftb then .ok ((mkmask i &&& curb).toNat, consumed + i)
      else if i < leftb then
        let a := curb &&& mkmask leftb
        let b' := a &&& ~~~(mkmask (leftb - i))
        .ok ((b' >>> UInt8.ofNat (leftb - i)).toNat, consumed + i)
      else
        let out := (mkmask leftb &&& curb).toNat <<< (i - leftb)
        match next b f (consumed + leftb) (i - leftb) with
        | .error e => .error e
        | .ok (o, c) => .ok (out + o, c)

/-- util.go:35-40 `Next`. -/
def nextBits (b : Bytes) (consumed i : Nat) : Except Err (Nat × Nat) :=
  if consumed + i > b.length * 8 then .error .tooDeep else next b (i + 1) consumed i

/-- `bits.TrailingZeros(uint(v))` for `v > 0`. Called at hamt/util.go:70. -/
def trailingZeros : Nat → Nat → Nat
  | 0, _ => 0
  | f + 1, v => if v % 2 = 1 then 0 else 1 + trailingZeros f (v / 2)

/-- util.go:67-75 `Logtwo`; `int` is 64 bits wide. -/
def logtwo (v : Int) : Except Err Nat :=
  if v ≤ 0 then .error .hamtSize
  else
    let lg2 := trailingZeros 64 v.toNat
    if (2 : Int) ^ lg2 ≠ v then .error .hamtSize else .ok lg2

/-! ### Lemmas -/

/-- The value of a byte string as a big-endian number. Used in specifications and proofs only. -/
def beNat : Bytes → Nat
  | [] => 0
  | x :: xs => x.toNat * 256 ^ xs.length + beNat xs

theorem beNat_lt : ∀ b : Bytes, beNat b < 256 ^ b.length
  | [] => by simp [beNat]
  | x :: xs => by
    have h1 := beNat_lt xs
    have h2 : x.toNat < 256 := x.toNat_lt
    simp only [beNat, List.length_cons, Nat.pow_succ]
    have : (x.toNat + 1) * 256 ^ xs.length ≤ 256 * 256 ^ xs.length := Nat.mul_le_mul_right _ h2
    rw [Nat.add_mul, Nat.one_mul] at this
    rw [Nat.mul_comm (256 ^ xs.length)]
    omega

theorem beNat_append : ∀ a b : Bytes, beNat (a ++ b) = beNat a * 256 ^ b.length + beNat b
  | [], b => by simp [beNat]
  | x :: a, b => by
    simp only [List.cons_append, beNat, List.length_append, beNat_append a b, Nat.pow_add]
    ring

theorem beNat_drop (b : Bytes) (k : Nat) : beNat (b.drop k) = beNat b % 256 ^ (b.length - k) := by
  conv => rhs; rw [← List.take_append_drop k b, beNat_append]
  have h := beNat_lt (b.drop k)
  rw [List.length_drop] at h
  simp only [List.length_append, List.length_take, List.length_drop]
  rw [show min k b.length + (b.length - k) - k = b.length - k by omega, Nat.mul_add_mod_self_right, Nat.mod_eq_of_lt h]

theorem beNat_get (b : Bytes) (q : Nat) (x : UInt8) (h : b[q]? = some x) :
    x.toNat = beNat b / 256 ^ (b.length - 1 - q) % 256 := by
  obtain ⟨hq, hx⟩ := List.getElem?_eq_some_iff.mp h
  have hd : b = b.take q ++ x :: b.drop (q + 1) := by
    conv => lhs; rw [← List.take_append_drop q b]
    rw [List.drop_eq_getElem_cons hq, hx]
  have hlt := beNat_lt (b.drop (q + 1))
  rw [List.length_drop] at hlt
  have hB : beNat b = (beNat (b.take q) * 256 + x.toNat) * 256 ^ (b.length - 1 - q) + beNat (b.drop (q + 1)) := by
    conv => lhs; rw [hd, beNat_append]
    simp only [beNat, List.length_cons, List.length_drop, Nat.pow_succ]
    rw [show b.length - (q + 1) = b.length - 1 - q by omega]
    ring
  rw [show b.length - (q + 1) = b.length - 1 - q by omega] at hlt
  rw [hB, Nat.add_comm, Nat.add_mul_div_right _ _ (by positivity), Nat.div_eq_of_lt hlt]
  have := x.toNat_lt
  omega

theorem mask_toNat (n : Nat) (x : UInt8) (h : n ≤ 8) : (mkmask n &&& x).toNat = x.toNat % 2 ^ n := by
  have h1 : (mkmask n).toNat = 2 ^ n - 1 := by
    have : 2 ^ n ≤ 2 ^ 8 := Nat.pow_le_pow_right (by omega) h
    simp only [mkmask, UInt8.toNat_ofNat']
    have : 0 < 2 ^ n := by positivity
    omega
  rw [UInt8.toNat_and, h1, Nat.and_comm, Nat.and_two_pow_sub_one_eq_mod]

theorem slice_byte : ∀ x < 256, ∀ l < 9, ∀ i < l,
    (((UInt8.ofNat x &&& mkmask l) &&& ~~~(mkmask (l - i))) >>> UInt8.ofNat (l - i)).toNat = (if i = 0 then 0 else x % 2 ^ l / 2 ^ (l - i)) := by
  decide +kernel

theorem next_spec (b : Bytes) : ∀ (f consumed i : Nat), i < f → 0 < i → consumed + i ≤ b.length * 8 →
    next b f consumed i = .ok (beNat b / 2 ^ (b.length * 8 - consumed - i) % 2 ^ i, consumed + i) := by
  intro f
  induction f with
  | zero => intro c i h; omega
  | succ f ih =>
    intro consumed i hf hi hle
    have hq : consumed / 8 < b.length := by omega
    obtain ⟨x, hx⟩ : ∃ x, b[consumed / 8]? = some x := ⟨_, List.getElem?_eq_getElem hq⟩
    have hxe := beNat_get b _ x hx
    generalize hB : beNat b = B at hxe
    generalize hR : b.length - 1 - consumed / 8 = R at hxe
    generalize hl : 8 - consumed % 8 = l
    have hl8 : l ≤ 8 ∧ 0 < l := by omega
    have hmod : ∀ k, k ≤ 8 → x.toNat % 2 ^ k = B / 2 ^ (8 * R) % 2 ^ k := by
      intro k hk
      have : (256 : Nat) = 2 ^ (8 - k) * 2 ^ k := by rw [← Nat.pow_add, show 8 - k + k = 8 by omega]
      rw [hxe, Nat.pow_mul]
      conv => lhs; rw [this]
      rw [Nat.mod_mod_of_dvd _ (Dvd.intro_left _ rfl), ← this]
    simp only [next, hx, hl]
    by_cases h1 : i = l
    · rw [if_pos h1, mask_toNat _ _ (by omega), hmod i (by omega)]
      rw [show b.length * 8 - consumed - i = 8 * R by omega]
    · rw [if_neg h1]
      by_cases h2 : i < l
      · rw [if_pos h2]
        have := slice_byte x.toNat x.toNat_lt l (by omega) i h2
        rw [UInt8.ofNat_toNat, if_neg (by omega)] at this
        rw [this, hmod l (by omega), show b.length * 8 - consumed - i = 8 * R + (l - i) by omega, Nat.pow_add,
          ← Nat.div_div_eq_div_mul]
        congr 2
        generalize B / 2 ^ (8 * R) = Y
        rw [← Nat.mod_mul_right_div_self, ← Nat.pow_add, show l - i + i = l by omega]
      · rw [if_neg h2, ih (consumed + l) (i - l) (by omega) (by omega) (by omega)]
        simp only [Except.ok.injEq, Prod.mk.injEq]
        refine ⟨?_, by omega⟩
        rw [mask_toNat _ _ (by omega), hmod l (by omega), Nat.shiftLeft_eq, show b.length * 8 - (consumed + l) - (i - l) = b.length * 8 - consumed - i by omega]
        generalize hr : b.length * 8 - consumed - i = r
        rw [show 8 * R = r + (i - l) by omega, Nat.pow_add, ← Nat.div_div_eq_div_mul]
        conv => rhs; rw [show i = (i - l) + l by omega, Nat.pow_add, Nat.mod_mul]
        rw [hB]; ring

theorem nextBits_ok (b : Bytes) (consumed i : Nat) (hi : 0 < i) (h : consumed + i ≤ b.length * 8) :
    nextBits b consumed i = .ok (beNat b / 2 ^ (b.length * 8 - consumed - i) % 2 ^ i, consumed + i) := by
  rw [nextBits, if_neg (by omega), next_spec _ _ _ _ (by omega) hi h]

theorem nextBits_deep (b : Bytes) (consumed i : Nat) (h : b.length * 8 < consumed + i) :
    nextBits b consumed i = .error .tooDeep := by rw [nextBits, if_pos h]

theorem trailingZeros_spec : ∀ (f v : Nat), 0 < v → v < 2 ^ f → 2 ^ trailingZeros f v ∣ v ∧ ¬ 2 ^ (trailingZeros f v + 1) ∣ v := by
  intro f
  induction f with
  | zero => intro v h1 h2; simp at h2; omega
  | succ f ih =>
    intro v h1 h2
    rw [trailingZeros]
    by_cases h : v % 2 = 1
    · rw [if_pos h]; simp; omega
    · rw [if_neg h]
      obtain ⟨w, rfl⟩ : ∃ w, v = 2 * w := ⟨v / 2, by omega⟩
      rw [Nat.mul_div_cancel_left _ (by omega)]
      obtain ⟨g1, g2⟩ := ih w (by omega) (by rw [Nat.pow_succ] at h2; omega)
      refine ⟨?_, ?_⟩
      · rw [Nat.add_comm 1, Nat.pow_succ, Nat.mul_comm]; exact Nat.mul_dvd_mul_left 2 g1
      · rw [Nat.add_comm 1, Nat.pow_succ _ (trailingZeros f w + 1), Nat.mul_comm _ 2]
        intro hd; exact g2 (Nat.dvd_of_mul_dvd_mul_left (by omega) hd)

theorem trailingZeros_pow (f k : Nat) (h : k < f) : trailingZeros f (2 ^ k) = k := by
  have h1 : 2 ^ k < 2 ^ f := Nat.pow_lt_pow_right (by omega) h
  obtain ⟨g1, g2⟩ := trailingZeros_spec f (2 ^ k) (by positivity) h1
  have a1 := (Nat.pow_dvd_pow_iff_le_right (x := 2) (by omega)).mp g1
  have a2 : ¬ trailingZeros f (2 ^ k) + 1 ≤ k := fun h => g2 (Nat.pow_dvd_pow 2 h)
  omega

end Unixfs.Hamt
