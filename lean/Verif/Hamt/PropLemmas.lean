import Verif.Hamt.Lazy

/-!
# Lemmas for the HAMT properties: widths, bits, names, serialised form
-/

namespace Unixfs.Hamt

variable {H : Hash} {lg : Nat} {A : Node → Prop}

/-! ### Widths -/

theorem logtwo_iff (v : Int) (hv : v < 2 ^ 63) (n : Nat) : logtwo v = .ok n ↔ v = 2 ^ n := by
  unfold logtwo
  constructor
  · intro h
    split at h
    · cases h
    · dsimp only at h
      split at h
      · cases h
      · rename_i h1 h2
        simp only [Except.ok.injEq] at h
        rw [← h]
        exact (not_ne_iff.mp h2).symm
  · rintro rfl
    have hn : n < 63 := by
      have : (2 : Int) ^ n < 2 ^ 63 := hv
      have h2 : (2 : Nat) ^ n < 2 ^ 63 := by exact_mod_cast this
      exact (Nat.pow_lt_pow_iff_right (by omega)).mp h2
    have h1 : ((2 : Int) ^ n).toNat = 2 ^ n := by
      have : (2 : Int) ^ n = ((2 ^ n : Nat) : Int) := by push_cast; rfl
      rw [this]; rfl
    have h0 : (0 : Int) < 2 ^ n := by positivity
    rw [if_neg (by omega)]
    dsimp only
    rw [h1, trailingZeros_pow 64 n (by omega), if_neg (by simp)]

theorem makeShard_iff (size : Int) (key : Bytes) (val : Option Link) (s : Shard) :
    makeShard size key val = .ok s ↔ ∃ k, 3 ≤ k ∧ k ≤ 10 ∧ size = 2 ^ k ∧ s = .mk (2 ^ k) (bfNew (2 ^ k)) [] none key val := by
  constructor
  · intro h
    rw [makeShard] at h
    split at h
    · cases h
    · rename_i n hl
      split at h
      · cases h
      split at h
      · cases h
      rename_i h1 h2
      rw [maximumHamtWidth] at h1
      have hs := (logtwo_iff size (by omega) n).mp hl
      have hn : n ≤ 10 := by
        have : (2 : Int) ^ n ≤ 2 ^ 10 := by rw [← hs]; omega
        have h2 : (2 : Nat) ^ n ≤ 2 ^ 10 := by exact_mod_cast this
        exact (Nat.pow_le_pow_iff_right (by omega)).mp h2
      have hn' : 3 ≤ n := by
        by_contra hc
        have : n = 0 ∨ n = 1 ∨ n = 2 := by omega
        rcases this with rfl | rfl | rfl <;> (rw [hs] at h2; norm_num at h2)
      refine ⟨n, hn', hn, hs, ?_⟩
      simp only [Except.ok.injEq] at h
      rw [← h]
      have : size.toNat = 2 ^ n := by
        rw [hs]
        have : (2 : Int) ^ n = ((2 ^ n : Nat) : Int) := by push_cast; rfl
        rw [this]; rfl
      rw [this]
  · rintro ⟨k, h1, h2, rfl, rfl⟩
    have := makeShard_valid (size := 2 ^ k) ⟨k, h1, h2, rfl⟩ key val
    push_cast at this
    exact this

theorem hp_of_new (hH : ∀ k, (H k).length = 8) {s0 : Shard} (hs : newShard ((2 ^ lg : Nat) : Int) = .ok s0) :
    HP H lg ∧ s0 = .mk (2 ^ lg) (bfNew (2 ^ lg)) [] none [] none := by
  obtain ⟨k, h1, h2, h3, h4⟩ := (makeShard_iff _ _ _ _).mp hs
  have : lg = k := by
    have : (2 : Nat) ^ lg = 2 ^ k := by exact_mod_cast h3
    exact Nat.pow_right_injective (le_refl 2) this
  subst this
  exact ⟨⟨hH, h1, h2⟩, h4⟩

/-! ### Bits -/

theorem bitsVal_append (a b : List Bool) : bitsVal (a ++ b) = bitsVal a * 2 ^ b.length + bitsVal b := by
  induction a with
  | nil => simp [bitsVal]
  | cons x a ih => simp only [List.cons_append, bitsVal, ih, List.length_append, pow_add]; ring

theorem bitsVal_lt (l : List Bool) : bitsVal l < 2 ^ l.length := by
  induction l with
  | nil => simp [bitsVal]
  | cons x l ih =>
    rw [bitsVal, List.length_cons, pow_succ]
    have : x.toNat ≤ 1 := by cases x <;> simp
    have := Nat.mul_le_mul_right (2 ^ l.length) this
    omega

theorem byte_bits : ∀ x < 256, bitsVal ((List.range 8).map (fun j => decide (x / 2 ^ (7 - j) % 2 = 1))) = x := by decide +kernel

theorem bitsOf_length (b : Bytes) : (bitsOf b).length = 8 * b.length := by
  induction b with
  | nil => rfl
  | cons x b ih => rw [bitsOf, List.flatMap_cons, List.length_append, ← bitsOf, ih]; simp; omega

theorem bitsVal_bitsOf (b : Bytes) : bitsVal (bitsOf b) = beNat b := by
  induction b with
  | nil => rfl
  | cons x b ih =>
    rw [bitsOf, List.flatMap_cons, ← bitsOf, bitsVal_append, ih, byte_bits _ x.toNat_lt, beNat, bitsOf_length]
    rw [show (256 : Nat) = 2 ^ 8 from rfl, ← pow_mul]

theorem bitsVal_slice (l : List Bool) (c w : Nat) (h : c + w ≤ l.length) :
    bitsVal ((l.drop c).take w) = bitsVal l / 2 ^ (l.length - c - w) % 2 ^ w := by
  have h1 : l = l.take c ++ ((l.drop c).take w ++ (l.drop c).drop w) := by rw [List.take_append_drop, List.take_append_drop]
  conv => rhs; rw [h1, bitsVal_append, bitsVal_append]
  have hl2 : ((l.drop c).drop w).length = l.length - c - w := by simp; omega
  have hlt := bitsVal_lt ((l.drop c).drop w)
  have hlt2 := bitsVal_lt ((l.drop c).take w)
  have hlw : ((l.drop c).take w).length = w := by simp; omega
  rw [hlw] at hlt2
  rw [hl2] at hlt
  simp only [List.length_append, hl2, hlw]
  have h3 : w + (l.length - c - w) = l.length - c := by omega
  have e : (l.take c ++ ((l.drop c).take w ++ (l.drop c).drop w)).length = l.length := by rw [← h1]
  have e' : (List.take c l).length + (w + (l.length - c - w)) - c - w = l.length - c - w := by
    simp only [List.length_take]; omega
  rw [e']
  have key : bitsVal (l.take c) * 2 ^ (w + (l.length - c - w)) + (bitsVal ((l.drop c).take w) * 2 ^ (l.length - c - w) + bitsVal ((l.drop c).drop w))
      = bitsVal ((l.drop c).drop w) + 2 ^ (l.length - c - w) * (bitsVal (l.take c) * 2 ^ w + bitsVal ((l.drop c).take w)) := by
    rw [pow_add]; ring
  rw [key, Nat.add_mul_div_left _ _ (by positivity), Nat.div_eq_of_lt hlt, Nat.zero_add, Nat.mul_comm, Nat.add_comm, Nat.add_mul_mod_self_left, Nat.mod_eq_of_lt hlt2]

theorem nextBits_slice (b : Bytes) (c w : Nat) (hw : 0 < w) (h : c + w ≤ b.length * 8) :
    nextBits b c w = .ok (bitsVal (((bitsOf b).drop c).take w), c + w) := by
  rw [nextBits_ok b c w hw h, bitsVal_slice _ _ _ (by rw [bitsOf_length]; omega), bitsVal_bitsOf, bitsOf_length, Nat.mul_comm 8]

theorem hix_slice (hp : HP H lg) (k : Bytes) {d : Nat} (hd : d < levels lg) : hix H lg k d = bitsVal (((bitsOf (H k)).drop (d * lg)).take lg) := by
  have h1 := next_ok hp k (n := levels lg - 1 - d) (d := d) (by omega)
  have hle : d * lg + lg ≤ (H k).length * 8 := by
    have h2 : (d + 1) * lg ≤ levels lg * lg := Nat.mul_le_mul_right _ (by omega)
    have h3 : levels lg * lg ≤ 64 := Nat.div_mul_le_self _ _
    have h4 : (d + 1) * lg = d * lg + lg := by ring
    rw [hp.hlen]; omega
  rw [nextBits_slice _ _ _ (by have := hp.lo; omega) hle] at h1
  simp only [Except.ok.injEq, Prod.mk.injEq] at h1
  exact h1.1.symm

/-- The bits of a bitfield, as a number. -/
theorem bfBit_beNat (bf : Bytes) (i : Nat) (h : i < bf.length * 8) : bfBit bf i = decide (beNat bf / 2 ^ i % 2 = 1) := by
  rw [bfBit]
  have hq : bf.length - i / 8 - 1 < bf.length := by omega
  rw [List.getElem?_eq_getElem hq]
  have h1 := beNat_get bf (bf.length - i / 8 - 1) _ (List.getElem?_eq_getElem hq)
  dsimp only
  rw [h1, show bf.length - 1 - (bf.length - i / 8 - 1) = i / 8 by omega]
  congr 2
  have h2 : (2 : Nat) ^ i = 256 ^ (i / 8) * 2 ^ (i % 8) := by
    rw [show (256 : Nat) = 2 ^ 8 from rfl, ← pow_mul, ← pow_add]
    congr 1; omega
  rw [h2, ← Nat.div_div_eq_div_mul]
  generalize beNat bf / 256 ^ (i / 8) = x
  have h3 : i % 8 < 8 := Nat.mod_lt _ (by omega)
  rw [show (256 : Nat) = 2 ^ (i % 8) * 2 ^ (8 - i % 8) from by rw [← pow_add]; rw [show i % 8 + (8 - i % 8) = 8 by omega]; rfl]
  rw [Nat.mod_mul_right_div_self]
  have h4 : (2 : Nat) ∣ 2 ^ (8 - i % 8) := dvd_pow_self 2 (by omega)
  exact Nat.mod_mod_of_dvd _ h4

theorem beNat_zeros (k : Nat) (b : Bytes) : beNat (List.replicate k 0 ++ b) = beNat b := by
  induction k with
  | zero => rfl
  | succ k ih => rw [List.replicate_succ, List.cons_append, beNat, ih]; simp

theorem beNat_bfBytes (bf : Bytes) : beNat ((bfBytes bf).getD []) = beNat bf := by
  obtain ⟨k, hk⟩ := bfBytes_getD bf
  conv => rhs; rw [hk, beNat_zeros]

/-! ### Names -/

theorem maxpadlen_digits {size : Nat} (h : ValidSize size) : maxpadlen size = digits size := by
  have : ∀ s ∈ [8, 16, 32, 64, 128, 256, 512, 1024], maxpadlen s = digits s := by decide +kernel
  exact this size (validSize_cases h)

/-- A shard node reached from a serialised trie is one of its sub-shards. -/
theorem subShard_subs (hp : HP H lg) (n : Nat) : ∀ (d : Nat) (P : Bytes → Prop) (b : Builder) (cs : List Kid) (x : Node), WF (hix H lg) (2 ^ lg) n d P cs →
    SubShard (digits (2 ^ lg)) ((Trie.node b cs).toN (2 ^ lg)) x → x ∈ (Trie.node b cs).subs (2 ^ lg) := by
  induction n with
  | zero => intro d P b cs x hw; exact hw.elim
  | succ n ih =>
    intro d P b cs x hw hx
    rw [Trie.toN] at hx
    rw [Trie.subs]
    cases hx with
    | self => simp
    | link hl hn h =>
      rename_i l
      right
      have : ∃ i t, Kid.mk i t ∈ cs ∧ l = .mk (linkNamePrefix (2 ^ lg) i ++ t.tkey) (t.tsz (t.toN (2 ^ lg))) (t.toN (2 ^ lg)) := by
        clear hw
        induction cs with
        | nil => simp [kidLinks] at hl
        | cons c cs ihl =>
          obtain ⟨i, t⟩ := c
          rw [kidLinks, List.mem_cons] at hl
          rcases hl with rfl | hl
          · exact ⟨i, t, by simp, rfl⟩
          · obtain ⟨i', t', h1, h2⟩ := ihl hl
            exact ⟨i', t', by simp [h1], h2⟩
      obtain ⟨i, t, hm, rfl⟩ := this
      have hg := mem_kget hw.sorted hm
      have hi := (hw.2 _ hm).1
      simp only [Kid.idx_mk] at hi
      simp only [Link.name, List.length_append, prefix_length hp.valid hi, maxpadlen_digits hp.valid] at hn
      have hsub : ∀ y ∈ t.subs (2 ^ lg), y ∈ subsL (2 ^ lg) cs := by
        intro y hy
        clear hw hl h hg
        induction cs with
        | nil => cases hm
        | cons c cs ihl =>
          obtain ⟨i', t'⟩ := c
          rw [subsL, List.mem_append]
          rcases List.mem_cons.mp hm with h | h
          · cases h; exact .inl hy
          · exact .inr (ihl h)
      cases t with
      | leaf k v =>
        have := (hw.leaf hg).2.2.2
        simp only [Trie.tkey] at hn
        exact absurd (List.length_eq_zero_iff.mp (by omega)) this
      | node b' cs' =>
        simp only [Link.target] at h
        exact hsub _ (ih _ _ b' cs' x (hw.node hg).2 h)

theorem kidLinks_eq (size : Nat) (cs : List Kid) :
    kidLinks size cs = cs.map (fun c => .mk (linkNamePrefix size c.idx ++ c.trie.tkey) (c.trie.tsz (c.trie.toN size)) (c.trie.toN size)) := by
  induction cs with
  | nil => simp [kidLinks]
  | cons c cs ih => cases c; simp [kidLinks, ih]


theorem nameLt_trans : ∀ {a b c : Bytes}, NameLt a b → NameLt b c → NameLt a c
  | _, [], _, h, _ => by simp [NameLt] at h
  | _, _ :: _, [], _, h => by simp [NameLt] at h
  | [], _ :: _, _ :: _, _, _ => trivial
  | x :: xs, y :: ys, z :: zs, h1, h2 => by
    simp only [NameLt] at h1 h2 ⊢
    rcases h1 with h1 | ⟨rfl, h1⟩
    · rcases h2 with h2 | ⟨rfl, h2⟩
      · exact .inl (UInt8.lt_trans h1 h2)
      · exact .inl h1
    · rcases h2 with h2 | ⟨rfl, h2⟩
      · exact .inl h2
      · exact .inr ⟨rfl, nameLt_trans h1 h2⟩

theorem nameLt_append : ∀ {a b : Bytes} (m n : Bytes), a.length = b.length → NameLt a b → NameLt (a ++ m) (b ++ n)
  | _, [], _, _, _, h => by simp [NameLt] at h
  | [], _ :: _, _, _, h, _ => by simp at h
  | x :: xs, y :: ys, m, n, hl, h => by
    simp only [NameLt, List.cons_append] at h ⊢
    rcases h with h | ⟨rfl, h⟩
    · exact .inl h
    · exact .inr ⟨rfl, nameLt_append m n (by simpa using hl) h⟩

theorem prefix_hex_all : ∀ s ∈ [8, 16, 32, 64, 128, 256, 512, 1024], ∀ i < s, hexVal (linkNamePrefix s i) = some i := by decide +kernel

theorem prefix_next_all : ∀ s ∈ [8, 16, 32, 64, 128, 256, 512, 1024], ∀ i < s - 1, NameLt (linkNamePrefix s i) (linkNamePrefix s (i + 1)) := by decide +kernel

theorem prefix_hex (h : ValidSize size) {i : Nat} (hi : i < size) : hexVal (linkNamePrefix size i) = some i :=
  prefix_hex_all size (validSize_cases h) i hi

theorem prefix_lt (h : ValidSize size) {i j : Nat} (hij : i < j) (hj : j < size) : NameLt (linkNamePrefix size i) (linkNamePrefix size j) := by
  induction j with
  | zero => omega
  | succ j ih =>
    have h1 := prefix_next_all size (validSize_cases h) j (by omega)
    by_cases he : i = j
    · rw [he]; exact h1
    · exact nameLt_trans (ih (by omega) (by omega)) h1

theorem occupied_bf (hv : ValidSize size) {cs : List Kid} (hl : ∀ i ∈ idxs cs, i < size) (hs : Sorted cs) :
    occupied size ((bfBytes (bfOf size (idxs cs))).getD []) = idxs cs := by
  have hb := isBf_bfOf (valid_dvd hv) hl
  rw [occupied, beNat_bfBytes, ← filter_range_idxs hs hl]
  apply List.filter_congr
  intro i hi
  have := List.mem_range.mp hi
  rw [filter_range_idxs hs hl, ← hb.bit i this, bfBit_beNat]
  have := hb.len
  omega

theorem kidLinks_mem {cs : List Kid} {l : Link} (hl : l ∈ kidLinks size cs) :
    ∃ i t, Kid.mk i t ∈ cs ∧ l = .mk (linkNamePrefix size i ++ t.tkey) (t.tsz (t.toN size)) (t.toN size) := by
  rw [kidLinks_eq, List.mem_map] at hl
  obtain ⟨⟨i, t⟩, h1, h2⟩ := hl
  exact ⟨i, t, h1, h2.symm⟩

theorem subShardAt_wf (hp : HP H lg) (b0 : Builder) (n : Nat) : ∀ (d : Nat) (P : Bytes → Prop) (b : Builder) (cs : List Kid) (p : List Nat) (x : Node),
    WF (hix H lg) (2 ^ lg) n d P cs → SubShardAt (digits (2 ^ lg)) ((Trie.node b cs).toN (2 ^ lg)) p x →
    ∃ m b' cs', m + p.length = n ∧ x = (Trie.node b' cs').toN (2 ^ lg) ∧
      WF (hix H lg) (2 ^ lg) m (d + p.length) (fun k => P k ∧ ∀ j < p.length, p[j]? = some (hix H lg k (d + j))) cs' ∧
      (Canon b0 n cs → Canon b0 m cs' ∧ (p ≠ [] ∨ b = b0 ∧ NC cs → b' = b0 ∧ NC cs')) := by
  induction n with
  | zero => intro d P b cs p x hw; exact hw.elim
  | succ n ih =>
    intro d P b cs p x hw hx
    rw [Trie.toN] at hx
    cases hx with
    | self => exact ⟨n + 1, b, cs, rfl, by rw [Trie.toN], by simpa using hw, fun h => ⟨h, fun h => h.elim (absurd rfl) id⟩⟩
    | link hl hn hi h =>
      rename_i l i p
      obtain ⟨i', t, hm, rfl⟩ := kidLinks_mem hl
      have hg := mem_kget hw.sorted hm
      have hi' := (hw.2 _ hm).1
      simp only [Kid.idx_mk] at hi'
      simp only [Link.name, List.length_append, prefix_length hp.valid hi', maxpadlen_digits hp.valid] at hn
      cases t with
      | leaf k v =>
        have := (hw.leaf hg).2.2.2
        simp only [Trie.tkey] at hn
        exact absurd (List.length_eq_zero_iff.mp (by omega)) this
      | node b' cs' =>
        simp only [Link.target] at h
        simp only [Link.name, Trie.tkey, List.append_nil, prefix_hex hp.valid hi', Option.some.injEq] at hi
        subst hi
        obtain ⟨m, b'', cs'', h1, h2, h3, h4⟩ := ih _ _ b' cs' p x (hw.node hg).2 h
        refine ⟨m, b'', cs'', by rw [List.length_cons]; omega, h2, ?_, ?_⟩
        · rw [List.length_cons, show d + (p.length + 1) = d + 1 + p.length by omega]
          have hpe : (fun k => (P k ∧ hix H lg k d = i') ∧ ∀ j < p.length, p[j]? = some (hix H lg k (d + 1 + j)))
              = (fun k => P k ∧ ∀ j < p.length + 1, (i' :: p)[j]? = some (hix H lg k (d + j))) := by
            funext k
            apply propext
            constructor
            · rintro ⟨⟨a, b⟩, c⟩
              refine ⟨a, fun j hj => ?_⟩
              cases j with
              | zero => simp [b]
              | succ j => rw [List.getElem?_cons_succ, c j (by omega), show d + 1 + j = d + (j + 1) by omega]
            · rintro ⟨a, b⟩
              refine ⟨⟨a, ?_⟩, fun j hj => ?_⟩
              · have := b 0 (by omega); simp at this; exact this.symm
              · have := b (j + 1) (by omega)
                rw [List.getElem?_cons_succ] at this
                rw [this, show d + 1 + j = d + (j + 1) by omega]
          rw [← hpe]
          exact h3
        · intro hc
          obtain ⟨c1, c2, c3⟩ := hc _ _ _ hg
          obtain ⟨c4, c5⟩ := h4 c3
          exact ⟨c4, fun _ => c5 (.inr ⟨c1, c2⟩)⟩

theorem format_of (hp : HP H lg) {n : Nat} {p : List Nat} {b : Builder} {cs : List Kid} {P : Bytes → Prop} (hn : n + p.length ≤ levels lg)
    (hP : ∀ k, P k → ∀ j < p.length, p[j]? = some (hix H lg k j)) (hw : WF (hix H lg) (2 ^ lg) n p.length P cs) :
    ∃ d ls, (Trie.node b cs).toN (2 ^ lg) = .proto d ls b ∧ Format H lg p d ls := by
  cases n with
  | zero => exact hw.elim
  | succ n =>
    have hlt := wf_idx hw
    refine ⟨_, _, by rw [Trie.toN], ⟨_, shardData_unmarshal hp.valid _ hlt, ?_⟩, ?_⟩
    · rw [occupied_bf hp.valid hlt hw.sorted, kidLinks_eq, idxs, List.forall₂_map_left_iff, List.forall₂_map_right_iff, List.forall₂_same]
      rintro ⟨i, t⟩ hm
      have hg := mem_kget hw.sorted hm
      have hi := (hw.2 _ hm).1
      simp only [Kid.idx_mk, Kid.trie_mk] at hi ⊢
      have hd : (linkNamePrefix (2 ^ lg) i).length = digits (2 ^ lg) := by rw [prefix_length hp.valid hi, maxpadlen_digits hp.valid]
      simp only [Link.name, List.take_left' hd, List.drop_left' hd]
      refine ⟨prefix_hex hp.valid hi, by simp [hd], fun hk j hj => ?_⟩
      cases t with
      | node => simp [Trie.tkey] at hk
      | leaf k v =>
        obtain ⟨_, h1, h2, h3⟩ := hw.leaf hg
        simp only [Trie.tkey]
        rw [← hix_slice hp k (d := j) (by omega)]
        by_cases he : j = p.length
        · rw [he, List.getElem?_concat_length, h2]
        · rw [List.getElem?_append_left (by omega), hP k h1 j (by omega)]
    · rw [kidLinks_eq, List.pairwise_map]
      apply List.Pairwise.imp_of_mem _ hw.sorted
      intro a b ha hb hab
      have h1 := (hw.2 _ ha).1
      have h2 := (hw.2 _ hb).1
      exact nameLt_append _ _ (by rw [prefix_length hp.valid h1, prefix_length hp.valid h2]) (prefix_lt hp.valid hab h2)

end Unixfs.Hamt
