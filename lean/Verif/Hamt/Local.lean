import Verif.Hamt.PropLemmas

/-!
# Which shards a call on a HAMT asks for

Helper lemmas for C79.

The definitions in this file belong to proofs; they model no code.
-/

namespace Unixfs.Hamt

/-- What is at index `j` of a shard. -/
def slotAt (s : Shard) (j : Nat) : Option Slot := if bfBit s.bf j then s.slots[s.sliceIndex j]? else none

/-- The unloaded sub-shards that a call for `key` may ask for. -/
inductive Need (H : Hash) (key : Bytes) : Nat → Shard → Node → Prop
  | here {d i d' : Nat} {s : Shard} {l : Link} (hn : nextBits (H key) d s.lg = .ok (i, d')) (hs : slotAt s i = some (.link l))
      (hl : childLinkType s.size l = .ok .shardLink) : Need H key d s l.target
  | under {d i d' : Nat} {s c : Shard} {l : Link} {x : Node} (hn : nextBits (H key) d s.lg = .ok (i, d')) (hs : slotAt s i = some (.link l))
      (hl : childLinkType s.size l = .ok .shardLink) (hc : newHamtFromDag l.target = .ok c) (h : Need H key d' c x) : Need H key d s x
  | child {d i d' : Nat} {s c : Shard} {x : Node} (hn : nextBits (H key) d s.lg = .ok (i, d')) (hs : slotAt s i = some (.child c))
      (h : Need H key d' c x) : Need H key d s x

mutual
/-- All sub-shards of a serialised shard have width `n`. -/
def UniN (n : Nat) : Node → Prop
  | .proto d ls b => (∀ c, newHamtFromDag (.proto d ls b) = .ok c → c.size = n) ∧ UniL n ls
  | .raw .. => True
  | .other .. => True
def UniL (n : Nat) : List Link → Prop
  | [] => True
  | .mk nm _ x :: ls => (nm.length = maxpadlen n → UniN n x) ∧ UniL n ls
end

theorem uniL_iff {n : Nat} : ∀ {ls : List Link}, UniL n ls ↔ ∀ l ∈ ls, l.name.length = maxpadlen n → UniN n l.target
  | [] => by simp [UniL]
  | .mk nm z x :: ls => by rw [UniL, uniL_iff (ls := ls)]; simp [Link.name, Link.target]

mutual
/-- A value node, or a shard of width `n` with a bitfield of this width, likewise its children. -/
def BfOk (n : Nat) : Shard → Prop
  | .mk size bf slots _ key val => (key ≠ [] ∧ val.isSome ∧ bf = bfNew size) ∨ (key = [] ∧ size = n ∧ bf.length * 8 = n ∧ BfOkL n slots)
def BfOkL (n : Nat) : List Slot → Prop
  | [] => True
  | .child s :: ss => BfOk n s ∧ BfOkL n ss
  | .link l :: ss => (l.name.length = maxpadlen n → UniN n l.target) ∧ BfOkL n ss
end

/-- What a slot may be. -/
def SlOk (n : Nat) : Slot → Prop
  | .child c => BfOk n c
  | .link l => l.name.length = maxpadlen n → UniN n l.target

theorem bfOkL_iff {n : Nat} : ∀ {ss : List Slot}, BfOkL n ss ↔ ∀ sl ∈ ss, SlOk n sl
  | [] => by simp [BfOkL]
  | .child s :: ss => by rw [BfOkL, bfOkL_iff (ss := ss)]; simp [SlOk]
  | .link l :: ss => by rw [BfOkL, bfOkL_iff (ss := ss)]; simp [SlOk]

/-- A shard that is not a value node. -/
structure Sh (n : Nat) (s : Shard) : Prop where
  valid : ValidSize n
  key : s.key = []
  size : s.size = n
  len : s.bf.length * 8 = n
  slots : ∀ sl ∈ s.slots, SlOk n sl

theorem Sh.ok {n : Nat} {s : Shard} (h : Sh n s) : BfOk n s := by
  obtain ⟨_, h1, h2, h3, h4⟩ := h
  cases s; rw [BfOk, bfOkL_iff]; exact .inr ⟨h1, h2, h3, h4⟩

theorem BfOk.sh {n : Nat} {s : Shard} (hv : ValidSize n) (h : BfOk n s) (hk : s.isValueNode = false) : Sh n s := by
  obtain ⟨size, bf, slots, b, key, val⟩ := s
  rw [BfOk, bfOkL_iff] at h
  rcases h with ⟨h1, h2, _⟩ | ⟨h1, h2, h3, h4⟩
  · simp [Shard.isValueNode, Shard.key, Shard.val, h1, h2] at hk
  · exact ⟨hv, h1, h2, by rw [← h3]; rfl, h4⟩

theorem Sh.vsize {n : Nat} {s : Shard} (h : Sh n s) : ValidSize s.size := by rw [h.size]; exact h.valid
theorem Sh.slen {n : Nat} {s : Shard} (h : Sh n s) : s.bf.length * 8 = s.size := by rw [h.size]; exact h.len

theorem BfOk.value {n : Nat} {s : Shard} (h : BfOk n s) (hk : s.isValueNode = true) : s.bf = bfNew s.size := by
  obtain ⟨size, bf, slots, b, key, val⟩ := s
  rw [BfOk] at h
  rcases h with ⟨h1, h2, h3⟩ | ⟨h1, _⟩
  · exact h3
  · simp [Shard.isValueNode, Shard.key, h1] at hk

theorem sh_new {n : Nat} {z : Int} {v : Option Link} {s : Shard} (h : makeShard z [] v = .ok s) (hz : z = (n : Int)) : Sh n s ∧ s.bf = bfNew s.size := by
  obtain ⟨k, h1, h2, h3, rfl⟩ := (makeShard_iff _ _ _ _).mp h
  have hn : n = 2 ^ k := by rw [hz] at h3; exact_mod_cast h3
  have hv : ValidSize (2 ^ k) := ⟨k, h1, h2, rfl⟩
  subst hn
  exact ⟨⟨hv, rfl, rfl, (isBf_new (valid_dvd hv)).len, by intro sl hsl; cases hsl⟩, rfl⟩

theorem bfOk_value {n : Nat} {z : Int} {key : Bytes} {l : Link} {s : Shard} (hk : key ≠ []) (h : makeShard z key (some l) = .ok s) : BfOk n s ∧ s.bf = bfNew s.size := by
  obtain ⟨k, h1, h2, h3, rfl⟩ := (makeShard_iff _ _ _ _).mp h
  exact ⟨.inl ⟨hk, rfl, rfl⟩, rfl⟩

theorem bfSetBytes_length (bf b : Bytes) : (bfSetBytes bf b).length = bf.length := by
  simp [bfSetBytes]

theorem sh_load {n : Nat} {x : Node} {s : Shard} (hu : UniN n x) (h : newHamtFromDag x = .ok s) : Sh n s := by
  cases x with
  | raw => cases h
  | other => cases h
  | proto d ls b =>
    have hz := hu.1 s h
    have hl := uniL_iff.mp hu.2
    rw [newHamtFromDag] at h
    split at h
    · cases h
    · split at h
      · cases h
      · split at h
        · cases h
        · split at h
          · cases h
          · rename_i s' hm
            cases h
            obtain ⟨k, h1, h2, h3, rfl⟩ := (makeShard_iff _ _ _ _).mp hm
            have hv : ValidSize (2 ^ k) := ⟨k, h1, h2, rfl⟩
            have hz : 2 ^ k = n := hz
            rw [← hz]
            refine ⟨hv, rfl, rfl, ?_, ?_⟩
            · show (bfSetBytes _ _).length * 8 = _
              rw [bfSetBytes_length]; exact (isBf_new (valid_dvd hv)).len
            · intro sl hsl
              have hsl : sl ∈ ls.map Slot.link := hsl
              obtain ⟨l, hm, rfl⟩ := List.mem_map.mp hsl
              rw [hz]
              exact hl l hm

theorem nextBits_inv {b : Bytes} {c lg i c' : Nat} (hlg : 0 < lg) (h : nextBits b c lg = .ok (i, c')) : i < 2 ^ lg ∧ c' = c + lg := by
  by_cases hd : b.length * 8 < c + lg
  · rw [nextBits_deep _ _ _ hd] at h; cases h
  · rw [nextBits_ok _ _ _ hlg (by omega)] at h
    simp only [Except.ok.injEq, Prod.mk.injEq] at h
    exact ⟨by rw [← h.1]; exact Nat.mod_lt _ (by positivity), h.2.symm⟩

theorem lg_spec {s : Shard} (h : ValidSize s.size) : 0 < s.lg ∧ 2 ^ s.lg = s.size := by
  obtain ⟨k, h1, h2, h3⟩ := h
  have : s.lg = k := by rw [Shard.lg, h3]; exact lg_valid h2
  rw [this, h3]; exact ⟨by omega, rfl⟩

theorem nextBits_shard {n : Nat} {s : Shard} (hb : Sh n s) {b : Bytes} {c i c' : Nat} (h : nextBits b c s.lg = .ok (i, c')) : i < s.size ∧ c' = c + s.lg := by
  have := lg_spec hb.vsize
  obtain ⟨h1, h2⟩ := nextBits_inv this.1 h
  exact ⟨by rw [← this.2]; exact h1, h2⟩

/-! ### Slots by index -/

/-- Number of set bits below `i`. -/
def cnt (bf : Bytes) (i : Nat) : Nat := ((List.range i).filter (fun j => bfBit bf j)).length

theorem cnt_succ (bf : Bytes) (i : Nat) : cnt bf (i + 1) = cnt bf i + if bfBit bf i then 1 else 0 := by
  rw [cnt, cnt, List.range_succ, List.filter_append, List.length_append, List.filter_singleton]
  cases bfBit bf i <;> rfl

theorem cnt_mono (bf : Bytes) {i j : Nat} (h : i ≤ j) : cnt bf i ≤ cnt bf j := by
  induction h with
  | refl => exact Nat.le_refl _
  | step _ ih => rw [cnt_succ]; omega

theorem cnt_lt (bf : Bytes) {i j : Nat} (h : i < j) (hb : bfBit bf i = true) : cnt bf i < cnt bf j := by
  have := cnt_mono bf h
  rw [Nat.succ_eq_add_one, cnt_succ, hb] at this
  simp at this; omega

theorem cnt_congr {a b : Bytes} {i : Nat} (h : ∀ j < i, bfBit a j = bfBit b j) : cnt a i = cnt b i := by
  rw [cnt, cnt]
  congr 1
  exact List.filter_congr fun j hj => h j (List.mem_range.mp hj)

theorem isBf_self {size : Nat} {bf : Bytes} (h : bf.length * 8 = size) : IsBf size bf ((List.range size).filter (fun j => bfBit bf j)) :=
  ⟨h, fun i hi => by simp [hi]⟩

theorem sliceIndex_cnt {n : Nat} {s : Shard} (hb : Sh n s) {i : Nat} (hi : i < s.size) : s.sliceIndex i = cnt s.bf i := by
  have hI := isBf_self hb.slen
  rw [Shard.sliceIndex, onesBefore_eq hI hi, cnt]
  congr 1
  refine List.filter_congr fun j hj => ?_
  rw [List.mem_range] at hj
  simp; omega

theorem bit_set {size : Nat} {bf : Bytes} (h : bf.length * 8 = size) {i j : Nat} (hi : i < size) (hj : j < size) :
    (bfSet bf i).length * 8 = size ∧ bfBit (bfSet bf i) j = (decide (j = i) || bfBit bf j) := by
  have := isBf_set (isBf_self h) hi (l' := i :: (List.range size).filter (fun j => bfBit bf j)) (by simp)
  refine ⟨this.len, ?_⟩
  rw [this.bit j hj]
  simp [hj, Bool.decide_or]

theorem bit_unset {size : Nat} {bf : Bytes} (h : bf.length * 8 = size) {i j : Nat} (hi : i < size) (hj : j < size) :
    (bfUnset bf i).length * 8 = size ∧ bfBit (bfUnset bf i) j = (decide (j ≠ i) && bfBit bf j) := by
  have := isBf_unset (isBf_self h) hi (l' := (List.range size).filter (fun j => j ≠ i ∧ bfBit bf j)) (by intro k; simp; tauto)
  refine ⟨this.len, ?_⟩
  rw [this.bit j hj]
  simp [hj, Bool.decide_and]

theorem cnt_set {size : Nat} {bf : Bytes} (h : bf.length * 8 = size) {i : Nat} (hi : i < size) (hb : bfBit bf i = false) :
    ∀ j, j ≤ size → cnt (bfSet bf i) j = cnt bf j + if i < j then 1 else 0
  | 0, _ => by simp [cnt]
  | j + 1, hj => by
    rw [cnt_succ, cnt_succ, cnt_set h hi hb j (by omega), (bit_set h hi (j := j) (by omega)).2]
    by_cases hji : j = i
    · subst hji; simp [hb]
    · have : (i < j + 1) = (i < j) := by simp; omega
      simp only [this, hji, decide_false, Bool.false_or]; omega

theorem cnt_unset {size : Nat} {bf : Bytes} (h : bf.length * 8 = size) {i : Nat} (hi : i < size) (hb : bfBit bf i = true) :
    ∀ j, j ≤ size → cnt (bfUnset bf i) j + (if i < j then 1 else 0) = cnt bf j
  | 0, _ => by simp [cnt]
  | j + 1, hj => by
    have ih := cnt_unset h hi hb j (by omega)
    rw [cnt_succ, cnt_succ, (bit_unset h hi (j := j) (by omega)).2]
    by_cases hji : j = i
    · subst hji; simp [hb] at ih ⊢; omega
    · have : (i < j + 1) = (i < j) := by simp; omega
      simp only [this, hji, ne_eq, not_false_eq_true, decide_true, Bool.true_and]; omega

theorem slotAt_eq {n : Nat} {s : Shard} (hb : Sh n s) {j : Nat} (hj : j < s.size) : slotAt s j = if bfBit s.bf j then s.slots[cnt s.bf j]? else none := by
  rw [slotAt, sliceIndex_cnt hb hj]

theorem slotAt_insert {n : Nat} {s s' : Shard} (hb : Sh n s) {key : Bytes} (hkey : key ≠ []) {v : Option Link} {i : Nat} (hi : i < s.size) (hbit : bfBit s.bf i = false)
    (h : s.insert key v i = .ok s') : Sh n s' ∧ s'.size = s.size ∧ (∃ sd, slotAt s' i = some (.child sd) ∧ BfOk n sd ∧ sd.bf = bfNew sd.size) ∧
      ∀ j < s.size, j ≠ i → slotAt s' j = slotAt s j := by
  unfold Shard.insert at h
  split at h
  · cases h
  · split at h
    · cases h
    · rename_i sd hsd
      obtain ⟨g1, g3⟩ := bfOk_value (n := n) hkey hsd
      dsimp only at h
      split at h
      · cases h
      · rename_i hle
        cases h
        rw [sliceIndex_cnt hb hi] at hle ⊢
        have hok : Sh n (s.withSlots (bfSet s.bf i) (s.slots.take (cnt s.bf i) ++ .child sd :: s.slots.drop (cnt s.bf i))) := by
          refine ⟨hb.valid, by simpa using hb.key, by simpa using hb.size, by simpa [hb.size] using (bit_set hb.slen hi hi).1, ?_⟩
          intro c hc
          rw [slots_withSlots] at hc
          rcases List.mem_append.mp hc with h | h
          · exact hb.slots c (List.mem_of_mem_take h)
          · rcases List.mem_cons.mp h with h | h
            · cases h; exact g1
            · exact hb.slots c (List.mem_of_mem_drop h)
        refine ⟨hok, by simp, ⟨sd, ?_, g1, g3⟩, ?_⟩
        · rw [slotAt_eq hok (by simpa using hi), bf_withSlots, slots_withSlots, (bit_set hb.slen hi hi).2, cnt_set hb.slen hi hbit i (by omega)]
          simp only [decide_true, Bool.true_or, if_true, Nat.lt_irrefl, if_false, Nat.add_zero]
          rw [List.getElem?_append_right (by simp)]
          rw [List.length_take, Nat.min_eq_left (by omega), Nat.sub_self]; rfl
        · intro j hj hne
          rw [slotAt_eq hok (by simpa using hj), slotAt_eq hb hj, bf_withSlots, slots_withSlots, (bit_set hb.slen hi hj).2, cnt_set hb.slen hi hbit j (by omega)]
          simp only [hne, decide_false, Bool.false_or]
          split
          · rename_i hbj
            rcases Nat.lt_or_gt_of_ne hne with hlt | hgt
            · have := cnt_lt s.bf hlt hbj
              rw [if_neg (by omega), Nat.add_zero, List.getElem?_append_left (by rw [List.length_take]; omega), List.getElem?_take_of_lt this]
            · have := cnt_mono s.bf (Nat.le_of_lt hgt)
              rw [if_pos hgt, List.getElem?_append_right (by rw [List.length_take]; omega), List.length_take, Nat.min_eq_left (by omega),
                show cnt s.bf j + 1 - cnt s.bf i = (cnt s.bf j - cnt s.bf i) + 1 by omega, List.getElem?_cons_succ, List.getElem?_drop]
              congr 1; omega
          · rfl

theorem slotAt_rm {n : Nat} {s s' : Shard} (hb : Sh n s) {i : Nat} (hi : i < s.size) (hbit : bfBit s.bf i = true)
    (h : s.rm i = .ok s') : Sh n s' ∧ s'.size = s.size ∧ slotAt s' i = none ∧ ∀ j < s.size, j ≠ i → slotAt s' j = slotAt s j := by
  unfold Shard.rm at h
  dsimp only at h
  split at h
  · cases h
  · rename_i hle
    cases h
    rw [sliceIndex_cnt hb hi] at hle ⊢
    have hok : Sh n (s.withSlots (bfUnset s.bf i) (s.slots.eraseIdx (cnt s.bf i))) := by
      refine ⟨hb.valid, by simpa using hb.key, by simpa using hb.size, by simpa [hb.size] using (bit_unset hb.slen hi hi).1, ?_⟩
      intro c hc
      rw [slots_withSlots] at hc
      exact hb.slots c (List.mem_of_mem_eraseIdx hc)
    refine ⟨hok, by simp, ?_, ?_⟩
    · rw [slotAt_eq hok (by simpa using hi), bf_withSlots, (bit_unset hb.slen hi hi).2]; simp
    · intro j hj hne
      rw [slotAt_eq hok (by simpa using hj), slotAt_eq hb hj, bf_withSlots, slots_withSlots, (bit_unset hb.slen hi hj).2]
      have hc := cnt_unset hb.slen hi hbit j (by omega)
      simp only [hne, ne_eq, not_false_eq_true, decide_true, Bool.true_and]
      split
      · rename_i hbj
        rcases Nat.lt_or_gt_of_ne hne with hlt | hgt
        · have := cnt_lt s.bf hlt hbj
          rw [if_neg (by omega)] at hc
          rw [List.getElem?_eraseIdx, if_pos (by omega)]; congr 1
        · have := cnt_lt s.bf hgt hbit
          rw [if_pos hgt] at hc
          rw [List.getElem?_eraseIdx, if_neg (by omega)]; congr 1
      · rfl

theorem slotAt_set {n : Nat} {s : Shard} (hb : Sh n s) {i : Nat} (hi : i < s.size) {sl old : Slot} (hold : slotAt s i = some old) (hsl : SlOk n sl) :
    Sh n (s.withSlots s.bf (s.slots.set (s.sliceIndex i) sl)) ∧ (s.withSlots s.bf (s.slots.set (s.sliceIndex i) sl)).size = s.size ∧
      slotAt (s.withSlots s.bf (s.slots.set (s.sliceIndex i) sl)) i = some sl ∧
      ∀ j < s.size, j ≠ i → slotAt (s.withSlots s.bf (s.slots.set (s.sliceIndex i) sl)) j = slotAt s j := by
  have hok : Sh n (s.withSlots s.bf (s.slots.set (s.sliceIndex i) sl)) := by
    refine ⟨hb.valid, by simpa using hb.key, by simpa using hb.size, by simpa using hb.len, ?_⟩
    intro c hc
    rw [slots_withSlots] at hc
    rcases List.mem_or_eq_of_mem_set hc with h | h
    · exact hb.slots c h
    · rw [h]; exact hsl
  rw [slotAt_eq hb hi] at hold
  split at hold
  · rename_i hbit
    obtain ⟨hlt, _⟩ := List.getElem?_eq_some_iff.mp hold
    refine ⟨hok, by simp, ?_, ?_⟩
    · rw [slotAt_eq hok (by simpa using hi), bf_withSlots, slots_withSlots, sliceIndex_cnt hb hi, if_pos hbit, List.getElem?_set_self hlt]
    · intro j hj hne
      rw [slotAt_eq hok (by simpa using hj), slotAt_eq hb hj, bf_withSlots, slots_withSlots, sliceIndex_cnt hb hi]
      split
      · rename_i hbj
        rw [List.getElem?_set_ne]
        rcases Nat.lt_or_gt_of_ne hne with hlt | hgt
        · have := cnt_lt s.bf hlt hbj; omega
        · have := cnt_lt s.bf hgt hbit; omega
      · rfl
  · cases hold

/-! ### Calls -/

section
variable {H : Hash} {n : Nat}

/-- What is asked for through one slot. -/
def NeedSl (H : Hash) (key : Bytes) (d size : Nat) : Option Slot → Node → Prop
  | some (.link l), x => childLinkType size l = .ok .shardLink ∧ (x = l.target ∨ ∃ c, newHamtFromDag l.target = .ok c ∧ Need H key d c x)
  | some (.child c), x => Need H key d c x
  | none, _ => False

theorem need_iff {key : Bytes} {d : Nat} {s : Shard} {x : Node} :
    Need H key d s x ↔ ∃ i d', nextBits (H key) d s.lg = .ok (i, d') ∧ NeedSl H key d' s.size (slotAt s i) x := by
  constructor
  · intro h
    cases h with
    | here hn hs hl => exact ⟨_, _, hn, by rw [hs]; exact ⟨hl, .inl rfl⟩⟩
    | under hn hs hl hc h => exact ⟨_, _, hn, by rw [hs]; exact ⟨hl, .inr ⟨_, hc, h⟩⟩⟩
    | child hn hs h => exact ⟨_, _, hn, by rw [hs]; exact h⟩
  · rintro ⟨i, d', hn, h⟩
    cases hs : slotAt s i with
    | none => rw [hs] at h; exact h.elim
    | some sl =>
      rw [hs] at h
      cases sl with
      | child c => exact .child hn hs h
      | link l =>
        obtain ⟨hl, rfl | ⟨c, hc, h⟩⟩ := h
        · exact .here hn hs hl
        · exact .under hn hs hl hc h

theorem need_empty {key : Bytes} {d : Nat} {s : Shard} {x : Node} (hb : s.bf = bfNew s.size) : ¬ Need H key d s x := by
  rw [need_iff]
  rintro ⟨i, d', _, h⟩
  rw [slotAt, hb, bfBit_new] at h
  exact h

/-- `s'` asks for nothing that `s` does not ask for, whatever the name. -/
def Less (H : Hash) (d : Nat) (s' s : Shard) : Prop := ∀ key x, Need H key d s' x → Need H key d s x

theorem less_of {d : Nat} {s s' : Shard} (hb : Sh n s) (hz : s'.size = s.size) {i : Nat} (ho : ∀ j < s.size, j ≠ i → slotAt s' j = slotAt s j)
    (hi : ∀ key x, NeedSl H key (d + s.lg) s.size (slotAt s' i) x → NeedSl H key (d + s.lg) s.size (slotAt s i) x) : Less H d s' s := by
  intro key x h
  rw [need_iff] at h ⊢
  obtain ⟨j, d', hn, h⟩ := h
  have hlg : s'.lg = s.lg := by rw [Shard.lg, Shard.lg, hz]
  rw [hlg] at hn
  rw [hz] at h
  obtain ⟨h1, h2⟩ := nextBits_shard hb hn
  refine ⟨j, d', hn, ?_⟩
  by_cases hj : j = i
  · subst hj; subst h2; exact hi key x h
  · rw [← ho j h1 hj]; exact h

theorem Less.refl (d : Nat) (s : Shard) : Less H d s s := fun _ _ h => h
theorem Less.trans {d : Nat} {a b c : Shard} (h : Less H d a b) (h' : Less H d b c) : Less H d a c := fun k x hx => h' k x (h k x hx)

theorem slotAt_bit {s : Shard} {i : Nat} (h : bfBit s.bf i = true) : slotAt s i = s.slots[s.sliceIndex i]? := by rw [slotAt, if_pos h]

/-- `get` asks for the target of the link only. -/
theorem get_agree {net net' : Net} {s : Shard} {i t : Nat} (hbit : bfBit s.bf i = true)
    (h : ∀ l, slotAt s i = some (.link l) → childLinkType s.size l = .ok .shardLink → ∀ u, net u l.target = net' u l.target) :
    s.get net (s.sliceIndex i) t = s.get net' (s.sliceIndex i) t := by
  rw [slotAt_bit hbit] at h
  rw [Shard.get, Shard.get]
  split
  · rfl
  · rfl
  · rename_i l hl
    split
    · rfl
    · rename_i hct
      rw [h l hl hct]
    · rfl

theorem shardLink_uni {s : Shard} (hb : Sh n s) {i : Nat} {l : Link} (hl : s.slots[i]? = some (.link l)) (hct : childLinkType s.size l = .ok .shardLink) : UniN n l.target := by
  have := hb.slots _ (List.mem_of_getElem? hl)
  rw [hb.size] at hct
  refine this ?_
  unfold childLinkType at hct
  split at hct
  · cases hct
  · split at hct
    · assumption
    · cases hct

theorem valueLink_key {size : Nat} {l : Link} (hct : childLinkType size l = .ok .shardValueLink) : l.name.drop (maxpadlen size) ≠ [] := by
  unfold childLinkType at hct
  split at hct
  · cases hct
  · split at hct
    · cases hct
    · rw [ne_eq, List.drop_eq_nil_iff]; omega

theorem get_less {net : Net} {s s1 c : Shard} {i t t1 d : Nat} (hb : Sh n s) (hi : i < s.size) (hbit : bfBit s.bf i = true)
    (h : s.get net (s.sliceIndex i) t = (.ok (c, s1), t1)) :
    Sh n s1 ∧ s1.size = s.size ∧ s1.bf = s.bf ∧ s1.builder = s.builder ∧ slotAt s1 i = some (.child c) ∧ BfOk n c ∧ (∀ j < s.size, j ≠ i → slotAt s1 j = slotAt s j) ∧
      (∀ key x, Need H key d c x → NeedSl H key d s.size (slotAt s i) x) := by
  have hs := slotAt_bit hbit
  have hset : ∀ {old : Slot} {c : Shard}, slotAt s i = some old → BfOk n c → Sh n (s.setChild c (s.sliceIndex i)) ∧ (s.setChild c (s.sliceIndex i)).size = s.size ∧
      (s.setChild c (s.sliceIndex i)).bf = s.bf ∧ (s.setChild c (s.sliceIndex i)).builder = s.builder ∧ slotAt (s.setChild c (s.sliceIndex i)) i = some (.child c) ∧
      ∀ j < s.size, j ≠ i → slotAt (s.setChild c (s.sliceIndex i)) j = slotAt s j := by
    intro old c ho hc
    rw [setChild_set]
    obtain ⟨g1, g2, g3, g4⟩ := slotAt_set hb hi ho (sl := .child c) hc
    exact ⟨g1, g2, by simp, by simp, g3, g4⟩
  rw [Shard.get] at h
  split at h
  · cases h
  · rename_i c' hc
    simp only [Prod.mk.injEq, Except.ok.injEq] at h
    obtain ⟨⟨rfl, rfl⟩, rfl⟩ := h
    rw [hc] at hs
    exact ⟨hb, rfl, rfl, rfl, hs, hb.slots _ (List.mem_of_getElem? hc), fun _ _ _ => rfl, fun key x hx => by rw [hs]; exact hx⟩
  · rename_i l hl
    rw [hl] at hs
    split at h
    · cases h
    · rename_i hct
      split at h
      · split at h
        · cases h
        · rename_i c' hc
          simp only [Prod.mk.injEq, Except.ok.injEq] at h
          obtain ⟨⟨rfl, rfl⟩, rfl⟩ := h
          have hok := (sh_load (shardLink_uni hb hl hct) hc).ok
          obtain ⟨g1, g2, g3, g4, g5, g6⟩ := hset hs hok
          exact ⟨g1, g2, g3, g4, g5, hok, g6, fun key x hx => by rw [hs]; exact ⟨hct, .inr ⟨_, hc, hx⟩⟩⟩
      · cases h
    · rename_i hct
      split at h
      · cases h
      · rename_i c' hc
        simp only [Prod.mk.injEq, Except.ok.injEq] at h
        obtain ⟨⟨rfl, rfl⟩, rfl⟩ := h
        obtain ⟨hok, hbf⟩ := bfOk_value (n := n) (valueLink_key hct) hc
        obtain ⟨g1, g2, g3, g4, g5, g6⟩ := hset hs hok
        exact ⟨g1, g2, g3, g4, g5, hok, g6, fun key x hx => absurd hx (need_empty hbf)⟩

/-- What `swapValue` does to the set of nodes that may be asked for. -/
structure Kept (H : Hash) (n d : Nat) (s s' : Shard) : Prop where
  ok : Sh n s'
  size : s'.size = s.size
  less : Less H d s' s

/-- Replacing a child. -/
theorem kept_set {d : Nat} {s : Shard} (hb : Sh n s) {i : Nat} (hi : i < s.size) {old sl : Slot} (ho : slotAt s i = some old)
    (hsl : SlOk n sl) (hn : ∀ key x, NeedSl H key (d + s.lg) s.size (some sl) x → NeedSl H key (d + s.lg) s.size (some old) x) :
    Kept H n d s (s.withSlots s.bf (s.slots.set (s.sliceIndex i) sl)) := by
  obtain ⟨g1, g2, g3, g4⟩ := slotAt_set hb hi ho hsl
  exact ⟨g1, g2, less_of hb g2 g4 (by rw [g3, ho]; exact hn)⟩

theorem kept_rm {d : Nat} {s s' : Shard} (hb : Sh n s) {i : Nat} (hi : i < s.size) (hbit : bfBit s.bf i = true) (h : s.rm i = .ok s') : Kept H n d s s' := by
  obtain ⟨g1, g2, g3, g4⟩ := slotAt_rm hb hi hbit h
  exact ⟨g1, g2, less_of hb g2 g4 (by rw [g3]; exact fun _ _ h => h.elim)⟩

theorem kept_insert {d : Nat} {s s' : Shard} (hb : Sh n s) {key : Bytes} (hkey : key ≠ []) {v : Option Link} {i : Nat} (hi : i < s.size) (hbit : bfBit s.bf i = false)
    (h : s.insert key v i = .ok s') : Kept H n d s s' := by
  obtain ⟨g1, g2, ⟨sd, g3, _, g5⟩, g4⟩ := slotAt_insert hb hkey hi hbit h
  exact ⟨g1, g2, less_of hb g2 g4 (by rw [g3]; exact fun _ _ h => (need_empty g5 h).elim)⟩

theorem Kept.refl {d : Nat} {s : Shard} (hb : Sh n s) : Kept H n d s s := ⟨hb, rfl, .refl d s⟩
theorem Kept.trans {d : Nat} {a b c : Shard} (h : Kept H n d a b) (h' : Kept H n d b c) : Kept H n d a c := ⟨h'.ok, h'.size.trans h.size, h'.less.trans h.less⟩

theorem sliceIndex_congr {s s' : Shard} (h : s'.bf = s.bf) (i : Nat) : s'.sliceIndex i = s.sliceIndex i := by rw [Shard.sliceIndex, Shard.sliceIndex, h]

theorem kept_collapse {d : Nat} {s c : Shard} (hb : Sh n s) {i : Nat} (hi : i < s.size) (hbit : bfBit s.bf i = true) (hc : slotAt s i = some (.child c)) (hbc : Sh n c)
    (old : Option Link) : Kept H n d s (s.collapse i (s.sliceIndex i) c old).2 := by
  unfold Shard.collapse
  split
  · split
    · exact .refl hb
    · rename_i h; exact kept_rm hb hi hbit h
  · rename_i sc hsc
    dsimp only
    split
    · rename_i hv
      have hsok : BfOk n sc := hbc.slots (.child sc) (by rw [hsc]; simp)
      rw [setChild_set]
      exact kept_set hb hi hc hsok fun key x hx => (need_empty (hsok.value hv) hx).elim
    · exact .refl hb
  · rename_i l hl
    split
    · exact .refl hb
    · rename_i hct
      refine kept_set hb hi hc (hbc.slots (.link l) (by rw [hl]; simp)) ?_
      rintro key x ⟨h, _⟩
      rw [hb.size, ← hbc.size, hct] at h
      cases h
    · exact .refl hb
  · exact .refl hb

/-- Nothing is asked for. -/
theorem Less.none {d : Nat} {s s' : Shard} (h : Less H d s' s) (he : s.bf = bfNew s.size) {key : Bytes} {x : Node} : ¬ Need H key d s' x :=
  fun hx => need_empty he (h key x hx)

theorem isValue_key {c : Shard} (h : c.isValueNode = true) : c.key ≠ [] := by
  obtain ⟨size, bf, slots, b, key, val⟩ := c
  cases key with
  | nil => simp [Shard.isValueNode, Shard.key] at h
  | cons a l => simp [Shard.key]

/-- After `get`, the shard `s1` with the loaded child replaced by `c'`. -/
theorem kept_child {net : Net} {s s1 c c' : Shard} {i t t1 d : Nat} (hb : Sh n s) (hi : i < s.size) (hbit : bfBit s.bf i = true)
    (h : s.get net (s.sliceIndex i) t = (.ok (c, s1), t1)) (hc' : BfOk n c') (hl : ∀ key x, Need H key (d + s.lg) c' x → Need H key (d + s.lg) c x) :
    Kept H n d s (s1.setChild c' (s.sliceIndex i)) := by
  obtain ⟨g1, g2, g3, g4, g5, g6, g7, g8⟩ := get_less (d := d + s.lg) (H := H) hb hi hbit h
  rw [← sliceIndex_congr g3, setChild_set]
  obtain ⟨k1, k2, k3, k4⟩ := slotAt_set g1 (by rw [g2]; exact hi) g5 (sl := .child c') hc'
  refine ⟨k1, k2.trans g2, less_of (i := i) hb (k2.trans g2) (fun j hj hne => (k4 j (by rw [g2]; exact hj) hne).trans (g7 j hj hne)) ?_⟩
  intro key x hx
  rw [k3] at hx
  exact g8 key x (hl key x hx)

theorem kept_get {net : Net} {s s1 c : Shard} {i t t1 d : Nat} (hb : Sh n s) (hi : i < s.size) (hbit : bfBit s.bf i = true)
    (h : s.get net (s.sliceIndex i) t = (.ok (c, s1), t1)) : Kept H n d s s1 := by
  obtain ⟨g1, g2, g3, g4, g5, g6, g7, g8⟩ := get_less (d := d + s.lg) (H := H) hb hi hbit h
  refine ⟨g1, g2, less_of (i := i) hb g2 g7 ?_⟩
  intro key x hx
  rw [g5] at hx
  exact g8 key x hx

theorem bfOk_withVal {c : Shard} (hc : BfOk n c) (v : Link) (hv : c.isValueNode = true) : BfOk n (c.withVal v) := by
  have := isValue_key hv
  obtain ⟨size, bf, slots, b, key, val⟩ := c
  rw [BfOk] at hc
  rcases hc with ⟨h1, h2, h3⟩ | ⟨h1, _⟩
  · exact .inl ⟨h1, rfl, h3⟩
  · exact absurd h1 this

theorem sh_builder {s : Shard} (h : Sh n s) (b : Option Builder) : Sh n (s.setCidBuilder b) := by
  cases s; exact ⟨h.valid, h.key, h.size, h.len, h.slots⟩

theorem swap_local {net net' : Net} : ∀ (f : Nat) (s : Shard) (d : Nat) (key : Bytes) (v : Option Link) (t : Nat), Sh n s → key ≠ [] →
    (∀ x, Need H key d s x → ∀ u, net u x = net' u x) →
    Shard.swapValue H net f s d key v t = Shard.swapValue H net' f s d key v t ∧ Kept H n d s (Shard.swapValue H net f s d key v t).2.1
  | 0, s, d, key, v, t, hb, hkey, hnet => ⟨rfl, .refl hb⟩
  | f + 1, s, d, key, v, t, hb, hkey, hnet => by
    rw [Shard.swapValue, Shard.swapValue]
    split
    · exact ⟨rfl, .refl hb⟩
    · rename_i i d' hn
      obtain ⟨hi, hd⟩ := nextBits_shard hb hn
      split
      · rename_i hbit
        split
        · exact ⟨rfl, .refl hb⟩
        · rename_i s' hs'
          exact ⟨rfl, kept_insert hb hkey hi hbit hs'⟩
      · rename_i hbit
        have hbit : bfBit s.bf i = true := by simpa using hbit
        have hget := get_agree (net := net) (net' := net') (t := t) hbit (fun l hl hct u => hnet _ (.here hn hl hct) u)
        dsimp only
        rw [← hget]
        split
        · exact ⟨rfl, .refl hb⟩
        · rename_i child s1 t1 hg
          have hks1 : Kept H n d s s1 := kept_get hb hi hbit hg
          have hch := get_less (d := d + s.lg) (H := H) hb hi hbit hg
          obtain ⟨g1, g2, g3, g4, g5, g6, g7, g8⟩ := hch
          split
          · rename_i hv
            split
            · split
              · split
                · exact ⟨rfl, hks1⟩
                · rename_i s2 hs2
                  exact ⟨rfl, hks1.trans (kept_rm g1 (by rw [g2]; exact hi) (by rw [g3]; exact hbit) hs2)⟩
              · rename_i v
                refine ⟨rfl, kept_child hb hi hbit hg (bfOk_withVal g6 v hv) ?_⟩
                intro key x hx
                refine (need_empty ?_ hx).elim
                have := g6.value hv
                cases child; exact this
            · split
              · exact ⟨rfl, hks1⟩
              · rename_i v
                split
                · exact ⟨rfl, hks1⟩
                · rename_i c0 hc0
                  obtain ⟨e1, e2⟩ := sh_new (n := n) hc0 (by rw [g1.size])
                  have e1' := sh_builder e1 s1.builder
                  have e2' : (c0.setCidBuilder s1.builder).bf = bfNew (c0.setCidBuilder s1.builder).size := by cases c0; exact e2
                  obtain ⟨a1, a2⟩ := swap_local (net := net) (net' := net') f _ d' key (some v) t1 e1' hkey (fun x hx => (need_empty e2' hx).elim)
                  rw [← a1]
                  split
                  · exact ⟨rfl, hks1⟩
                  · rename_i c1 t2 hc1
                    rw [hc1] at a2
                    obtain ⟨b1, b2⟩ := swap_local (net := net) (net' := net') f c1 d' child.key child.val t2 a2.ok (isValue_key hv) (fun x hx => (a2.less.none e2' hx).elim)
                    rw [← b1]
                    split
                    · exact ⟨rfl, hks1⟩
                    · rename_i c2 t3 hc2
                      rw [hc2] at b2
                      refine ⟨rfl, kept_child hb hi hbit hg b2.ok.ok ?_⟩
                      intro key x hx
                      rw [← hd] at hx
                      exact ((b2.less.trans a2.less).none e2' hx).elim
          · rename_i hv
            have hcs : Sh n child := g6.sh hb.valid (by simpa using hv)
            obtain ⟨a1, a2⟩ := swap_local (net := net) (net' := net') f child d' key v t1 hcs hkey (fun x hx => hnet x (need_iff.mpr ⟨i, d', hn, by
              rw [hd] at hx ⊢; exact g8 key x hx⟩))
            rw [← a1]
            split
            · rename_i child' t2 hc'
              rw [hc'] at a2
              rw [hd] at a2
              exact ⟨rfl, kept_child hb hi hbit hg a2.ok.ok a2.less⟩
            · rename_i child' t2 hc'
              rw [hc'] at a2
              rw [hd] at a2
              have hk := kept_child hb hi hbit hg a2.ok.ok a2.less
              split
              · exact ⟨rfl, hk⟩
              · have hbf : (s1.setChild child' (s.sliceIndex i)).bf = s.bf := by rw [setChild_set]; simpa using g3
                have hsl : slotAt (s1.setChild child' (s.sliceIndex i)) i = some (.child child') := by
                  rw [← sliceIndex_congr g3, setChild_set]
                  exact (slotAt_set g1 (by rw [g2]; exact hi) g5 (sl := .child child') a2.ok.ok).2.2.1
                refine ⟨rfl, hk.trans ?_⟩
                have := kept_collapse (H := H) (d := d) hk.ok (by rw [hk.size]; exact hi) (by rw [hbf]; exact hbit) hsl a2.ok
                rw [sliceIndex_congr hbf] at this
                exact this _

theorem get_local {net net' : Net} : ∀ (f : Nat) (s : Shard) (d : Nat) (key : Bytes) (t : Nat), Sh n s →
    (∀ x, Need H key d s x → ∀ u, net u x = net' u x) →
    Shard.getValue H net f s d key t = Shard.getValue H net' f s d key t ∧ Kept H n d s (Shard.getValue H net f s d key t).2.1
  | 0, s, d, key, t, hb, hnet => ⟨rfl, .refl hb⟩
  | f + 1, s, d, key, t, hb, hnet => by
    rw [Shard.getValue, Shard.getValue]
    split
    · exact ⟨rfl, .refl hb⟩
    · rename_i i d' hn
      obtain ⟨hi, hd⟩ := nextBits_shard hb hn
      split
      · exact ⟨rfl, .refl hb⟩
      · rename_i hbit
        have hbit : bfBit s.bf i = true := by simpa using hbit
        have hget := get_agree (net := net) (net' := net') (t := t) hbit (fun l hl hct u => hnet _ (.here hn hl hct) u)
        dsimp only
        rw [← hget]
        split
        · exact ⟨rfl, .refl hb⟩
        · rename_i child s1 t1 hg
          have hks1 : Kept H n d s s1 := kept_get hb hi hbit hg
          obtain ⟨g1, g2, g3, g4, g5, g6, g7, g8⟩ := get_less (d := d + s.lg) (H := H) hb hi hbit hg
          split
          · split
            · exact ⟨rfl, hks1⟩
            · exact ⟨rfl, hks1⟩
          · rename_i hv
            have hcs : Sh n child := g6.sh hb.valid (by simpa using hv)
            obtain ⟨a1, a2⟩ := get_local (net := net) (net' := net') f child d' key t1 hcs (fun x hx => hnet x (need_iff.mpr ⟨i, d', hn, by
              rw [hd] at hx ⊢; exact g8 key x hx⟩))
            rw [← a1]
            refine ⟨rfl, ?_⟩
            rw [hd] at a2
            rw [hd]
            exact kept_child hb hi hbit hg a2.ok.ok a2.less

end

/-! ### Histories -/

section
variable {H : Hash} {n : Nat}

theorem kept_builder {d : Nat} {s : Shard} (h : Sh n s) (b : Option Builder) : Kept H n d s (s.setCidBuilder b) := by
  refine ⟨sh_builder h b, by cases s; rfl, ?_⟩
  intro key x hx
  rw [need_iff] at hx ⊢
  cases s; exact hx

theorem exec_local {net net' : Net} {ref : Nat → Bool} {K : Bytes → Prop} {c : Cfg} {op : Op} (hs : Sh n c.shard) (ho : About K op) (hne : op.target ≠ some [])
    (hnet : ∀ k, K k → ∀ x, Need H k 0 c.shard x → ∀ u, net u x = net' u x) :
    exec H net ref op c = exec H net' ref op c ∧ Kept H n 0 c.shard (exec H net ref op c).2.shard := by
  cases ho with
  | set h =>
    rename_i k nd
    have hk : k ≠ [] := fun h => hne (by rw [h]; rfl)
    rw [exec, exec, Shard.swap, Shard.swap]
    by_cases hr : ref c.st.length = true
    · rw [if_pos hr, if_pos hr]; exact ⟨rfl, .refl hs⟩
    · rw [if_neg hr, if_neg hr]
      obtain ⟨h1, h2⟩ := swap_local (f := Shard.fuel H k) (s := c.shard) (d := 0) (key := k) (v := some (makeLink (linkNamePrefix c.shard.size 0 ++ k) nd)) (t := c.t) hs hk (hnet k h)
      rw [← h1]
      refine ⟨rfl, ?_⟩
      generalize Shard.swapValue H net _ _ _ _ _ _ = o at h2
      obtain ⟨r, s', t'⟩ := o
      cases r <;> exact h2
  | swap h =>
    rename_i k nd
    have hk : k ≠ [] := fun h => hne (by rw [h]; rfl)
    rw [exec, exec, Shard.swap, Shard.swap]
    by_cases hr : ref c.st.length = true
    · rw [if_pos hr, if_pos hr]; exact ⟨rfl, .refl hs⟩
    · rw [if_neg hr, if_neg hr]
      obtain ⟨h1, h2⟩ := swap_local (f := Shard.fuel H k) (s := c.shard) (d := 0) (key := k) (v := some (makeLink (linkNamePrefix c.shard.size 0 ++ k) nd)) (t := c.t) hs hk (hnet k h)
      rw [← h1]
      refine ⟨rfl, ?_⟩
      generalize Shard.swapValue H net _ _ _ _ _ _ = o at h2
      obtain ⟨r, s', t'⟩ := o
      cases r <;> exact h2
  | setLink h =>
    rename_i k l
    have hk : k ≠ [] := fun h => hne (by rw [h]; rfl)
    rw [exec, exec, Shard.setLinkOp, Shard.setLinkOp]
    obtain ⟨h1, h2⟩ := swap_local (f := Shard.fuel H k) (s := c.shard) (d := 0) (key := k) (v := some (Link.rename l (linkNamePrefix c.shard.size 0 ++ k))) (t := c.t) hs hk (hnet k h)
    rw [← h1]
    refine ⟨rfl, ?_⟩
    generalize Shard.swapValue H net _ _ _ _ _ _ = o at h2
    obtain ⟨r, s', t'⟩ := o
    cases r <;> exact h2
  | remove h =>
    rename_i k
    have hk : k ≠ [] := fun h => hne (by rw [h]; rfl)
    rw [exec, exec, Shard.take, Shard.take]
    obtain ⟨h1, h2⟩ := swap_local (f := Shard.fuel H k) (s := c.shard) (d := 0) (key := k) (v := none) (t := c.t) hs hk (hnet k h)
    rw [← h1]
    refine ⟨rfl, ?_⟩
    generalize Shard.swapValue H net _ _ _ _ _ _ = o at h2
    obtain ⟨r, s', t'⟩ := o
    cases r <;> exact h2
  | take h =>
    rename_i k
    have hk : k ≠ [] := fun h => hne (by rw [h]; rfl)
    rw [exec, exec, Shard.take, Shard.take]
    obtain ⟨h1, h2⟩ := swap_local (f := Shard.fuel H k) (s := c.shard) (d := 0) (key := k) (v := none) (t := c.t) hs hk (hnet k h)
    rw [← h1]
    refine ⟨rfl, ?_⟩
    generalize Shard.swapValue H net _ _ _ _ _ _ = o at h2
    obtain ⟨r, s', t'⟩ := o
    cases r <;> exact h2
  | find h =>
    rename_i k
    rw [exec, exec, Shard.find, Shard.find]
    obtain ⟨h1, h2⟩ := get_local (f := Shard.fuel H k) (s := c.shard) (d := 0) (key := k) (t := c.t) hs (hnet k h)
    rw [← h1]
    refine ⟨rfl, ?_⟩
    generalize Shard.getValue H net _ _ _ _ _ = o at h2
    obtain ⟨r, s', t'⟩ := o
    rcases r with _ | _ | _ <;> exact h2
  | node =>
    rw [exec, exec]
    refine ⟨rfl, ?_⟩
    split <;> exact .refl hs
  | setCidBuilder => exact ⟨rfl, kept_builder hs _⟩

theorem results_local {net net' : Net} {ref : Nat → Bool} {K : Bytes → Prop} : ∀ (ops : List Op) (c : Cfg), Sh n c.shard → (∀ op ∈ ops, About K op) → NoEmptyName ops →
    (∀ k, K k → ∀ x, Need H k 0 c.shard x → ∀ u, net u x = net' u x) →
    results H net ref ops c = results H net' ref ops c ∧ execAll H net ref ops c = execAll H net' ref ops c
  | [], c, _, _, _, _ => ⟨rfl, rfl⟩
  | op :: ops, c, hs, ho, hne, hnet => by
    obtain ⟨h1, h2⟩ := exec_local (ref := ref) hs (ho op (by simp)) (hne op (by simp)) hnet
    obtain ⟨h3, h4⟩ := results_local (ref := ref) ops (exec H net ref op c).2 h2.ok (fun o h => ho o (by simp [h])) (fun o h => hne o (by simp [h]))
      (fun k hk x hx => hnet k hk x (h2.less k x hx))
    rw [results, results, execAll, execAll, ← h1]
    exact ⟨by rw [h3], h4⟩

end

/-! ### Number of fetches -/

section
variable {H : Hash} {n : Nat}

theorem get_count {net : Net} {s : Shard} {i t : Nat} : t ≤ (s.get net i t).2 ∧ (s.get net i t).2 ≤ t + 1 := by
  rw [Shard.get]
  split
  · exact ⟨le_refl _, by simp⟩
  · exact ⟨le_refl _, by simp⟩
  · split
    · exact ⟨le_refl _, by simp⟩
    · split
      · split <;> exact ⟨by simp, le_refl _⟩
      · exact ⟨by simp, le_refl _⟩
    · split <;> exact ⟨le_refl _, by simp⟩

theorem get_count_none {net : Net} {s : Shard} {i t : Nat} (hbit : bfBit s.bf i = true)
    (h : ∀ l, slotAt s i = some (.link l) → childLinkType s.size l ≠ .ok .shardLink) : (s.get net (s.sliceIndex i) t).2 = t := by
  rw [slotAt_bit hbit] at h
  rw [Shard.get]
  split
  · rfl
  · rfl
  · rename_i l hl
    split
    · rfl
    · rename_i hct; exact absurd hct (h l hl)
    · split <;> rfl

theorem swap_none {net : Net} : ∀ (f : Nat) (s : Shard) (d : Nat) (key : Bytes) (v : Option Link) (t : Nat), Sh n s → key ≠ [] →
    (∀ x, ¬ Need H key d s x) → (Shard.swapValue H net f s d key v t).2.2 = t
  | 0, s, d, key, v, t, hb, hkey, hno => rfl
  | f + 1, s, d, key, v, t, hb, hkey, hno => by
    rw [Shard.swapValue]
    split
    · rfl
    · rename_i i d' hn
      obtain ⟨hi, hd⟩ := nextBits_shard hb hn
      split
      · split <;> rfl
      · rename_i hbit
        have hbit : bfBit s.bf i = true := by simpa using hbit
        have hget := get_count_none (net := net) (t := t) hbit (fun l hl hct => hno _ (.here hn hl hct))
        dsimp only
        split
        · rename_i e t1 hg; rw [hg] at hget; exact hget
        · rename_i child s1 t1 hg
          rw [hg] at hget
          have hget : t1 = t := hget
          subst hget
          obtain ⟨g1, g2, g3, g4, g5, g6, g7, g8⟩ := get_less (d := d + s.lg) (H := H) hb hi hbit hg
          split
          · rename_i hv
            split
            · split
              · split <;> rfl
              · rfl
            · split
              · rfl
              · rename_i v
                split
                · rfl
                · rename_i c0 hc0
                  obtain ⟨e1, e2⟩ := sh_new (n := n) hc0 (by rw [g1.size])
                  have e1' := sh_builder e1 s1.builder
                  have e2' : (c0.setCidBuilder s1.builder).bf = bfNew (c0.setCidBuilder s1.builder).size := by cases c0; exact e2
                  have a1 := swap_none (net := net) f _ d' key (some v) t1 e1' hkey (fun x hx => need_empty e2' hx)
                  obtain ⟨_, a2⟩ := swap_local (H := H) (net := net) (net' := net) f _ d' key (some v) t1 e1' hkey (fun _ _ _ => rfl)
                  split
                  · rename_i t2 hc1; rw [hc1] at a1; exact a1
                  · rename_i c1 t2 hc1
                    rw [hc1] at a1 a2
                    have b1 := swap_none (net := net) f c1 d' child.key child.val t2 a2.ok (isValue_key hv) (fun x hx => a2.less.none e2' hx)
                    split
                    · rename_i hc2; rw [hc2] at b1; exact b1.trans a1
                    · rename_i hc2; rw [hc2] at b1; exact b1.trans a1
          · rename_i hv
            have hcs : Sh n child := g6.sh hb.valid (by simpa using hv)
            have a1 := swap_none (net := net) f child d' key v t1 hcs hkey (fun x hx => hno x (need_iff.mpr ⟨i, d', hn, by
              rw [hd] at hx ⊢; exact g8 key x hx⟩))
            split
            · rename_i hc'; rw [hc'] at a1; exact a1
            · rename_i hc'
              rw [hc'] at a1
              split <;> exact a1

theorem div_step {a d lg : Nat} (hlg : 0 < lg) (h : d + lg ≤ a) : (a - (d + lg)) / lg + 1 = (a - d) / lg := by
  rw [← Nat.add_div_right _ hlg]; congr 1; omega

theorem nextBits_fits {b : Bytes} {c w i c' : Nat} (h : nextBits b c w = .ok (i, c')) : c + w ≤ b.length * 8 := by
  by_contra hc
  rw [nextBits_deep b c w (by omega)] at h
  cases h

theorem swap_count {net : Net} : ∀ (f : Nat) (s : Shard) (d : Nat) (key : Bytes) (v : Option Link) (t : Nat), Sh n s → key ≠ [] →
    (Shard.swapValue H net f s d key v t).2.2 ≤ t + ((H key).length * 8 - d) / s.lg
  | 0, s, d, key, v, t, hb, hkey => by rw [Shard.swapValue]; exact Nat.le_add_right _ _
  | f + 1, s, d, key, v, t, hb, hkey => by
    rw [Shard.swapValue]
    split
    · simp
    · rename_i i d' hn
      obtain ⟨hi, hd⟩ := nextBits_shard hb hn
      have hst := div_step (lg_spec hb.vsize).1 (nextBits_fits hn)
      generalize hQ : ((H key).length * 8 - d) / s.lg = Q at hst ⊢
      generalize hQ' : ((H key).length * 8 - (d + s.lg)) / s.lg = Q' at hst
      split
      · split <;> simp
      · rename_i hbit
        have hbit : bfBit s.bf i = true := by simpa using hbit
        have hget := (get_count (net := net) (s := s) (i := s.sliceIndex i) (t := t)).2
        dsimp only
        split
        · rename_i e t1 hg; rw [hg] at hget; dsimp only at hget ⊢; omega
        · rename_i child s1 t1 hg
          rw [hg] at hget
          dsimp only at hget
          obtain ⟨g1, g2, g3, g4, g5, g6, g7, g8⟩ := get_less (d := d + s.lg) (H := H) hb hi hbit hg
          split
          · rename_i hv
            split
            · split
              · split <;> (dsimp only; omega)
              · dsimp only; omega
            · split
              · dsimp only; omega
              · rename_i v
                split
                · dsimp only; omega
                · rename_i c0 hc0
                  obtain ⟨e1, e2⟩ := sh_new (n := n) hc0 (by rw [g1.size])
                  have e1' := sh_builder e1 s1.builder
                  have e2' : (c0.setCidBuilder s1.builder).bf = bfNew (c0.setCidBuilder s1.builder).size := by cases c0; exact e2
                  have a1 := swap_none (H := H) (net := net) f _ d' key (some v) t1 e1' hkey (fun x hx => need_empty e2' hx)
                  obtain ⟨_, a2⟩ := swap_local (H := H) (net := net) (net' := net) f _ d' key (some v) t1 e1' hkey (fun _ _ _ => rfl)
                  split
                  · rename_i t2 hc1; rw [hc1] at a1; dsimp only at a1 ⊢; omega
                  · rename_i c1 t2 hc1
                    rw [hc1] at a1 a2
                    have b1 := swap_none (H := H) (net := net) f c1 d' child.key child.val t2 a2.ok (isValue_key hv) (fun x hx => a2.less.none e2' hx)
                    split
                    · rename_i hc2; rw [hc2] at b1; dsimp only at a1 b1 ⊢; omega
                    · rename_i hc2; rw [hc2] at b1; dsimp only at a1 b1 ⊢; omega
          · rename_i hv
            have hcs : Sh n child := g6.sh hb.valid (by simpa using hv)
            have hlg : child.lg = s.lg := by rw [Shard.lg, Shard.lg, hcs.size, hb.size]
            have a1 := swap_count (net := net) f child d' key v t1 hcs hkey
            rw [hlg, hd, hQ'] at a1
            split
            · rename_i hc'; rw [hd] at hc'; rw [hc'] at a1; dsimp only at a1 ⊢; omega
            · rename_i hc'
              rw [hd] at hc'
              rw [hc'] at a1
              dsimp only at a1
              split <;> (dsimp only; omega)

theorem getValue_count {net : Net} : ∀ (f : Nat) (s : Shard) (d : Nat) (key : Bytes) (t : Nat), Sh n s →
    (Shard.getValue H net f s d key t).2.2 ≤ t + ((H key).length * 8 - d) / s.lg
  | 0, s, d, key, t, hb => by rw [Shard.getValue]; exact Nat.le_add_right _ _
  | f + 1, s, d, key, t, hb => by
    rw [Shard.getValue]
    split
    · simp
    · rename_i i d' hn
      obtain ⟨hi, hd⟩ := nextBits_shard hb hn
      have hst := div_step (lg_spec hb.vsize).1 (nextBits_fits hn)
      generalize hQ : ((H key).length * 8 - d) / s.lg = Q at hst ⊢
      generalize hQ' : ((H key).length * 8 - (d + s.lg)) / s.lg = Q' at hst
      split
      · simp
      · rename_i hbit
        have hbit : bfBit s.bf i = true := by simpa using hbit
        have hget := (get_count (net := net) (s := s) (i := s.sliceIndex i) (t := t)).2
        dsimp only
        split
        · rename_i e t1 hg; rw [hg] at hget; dsimp only at hget ⊢; omega
        · rename_i child s1 t1 hg
          rw [hg] at hget
          dsimp only at hget
          obtain ⟨g1, g2, g3, g4, g5, g6, g7, g8⟩ := get_less (d := d + s.lg) (H := H) hb hi hbit hg
          split
          · split <;> (dsimp only; omega)
          · rename_i hv
            have hcs : Sh n child := g6.sh hb.valid (by simpa using hv)
            have hlg : child.lg = s.lg := by rw [Shard.lg, Shard.lg, hcs.size, hb.size]
            have a1 := getValue_count (net := net) f child d' key t1 hcs
            rw [hlg, hd, hQ'] at a1
            dsimp only
            rw [hd]
            exact le_trans a1 (by omega)

theorem exec_count {net : Net} {ref : Nat → Bool} {K : Bytes → Prop} {c : Cfg} {op : Op} (hH : ∀ k, (H k).length = 8) (hs : Sh n c.shard) (ho : About K op)
    (hne : op.target ≠ some []) : (exec H net ref op c).2.t ≤ c.t + 64 / c.shard.lg := by
  cases ho with
  | set h =>
    rename_i k nd
    have hk : k ≠ [] := fun h => hne (by rw [h]; rfl)
    rw [exec, Shard.swap]
    by_cases hr : ref c.st.length = true
    · rw [if_pos hr]; exact Nat.le_add_right _ _
    · rw [if_neg hr]
      have h2 := swap_count (H := H) (net := net) (Shard.fuel H k) c.shard 0 k (some (makeLink (linkNamePrefix c.shard.size 0 ++ k) nd)) c.t hs hk
      rw [hH] at h2
      generalize Shard.swapValue H net _ _ _ _ _ _ = o at h2
      obtain ⟨r, s', t'⟩ := o
      cases r <;> exact h2
  | swap h =>
    rename_i k nd
    have hk : k ≠ [] := fun h => hne (by rw [h]; rfl)
    rw [exec, Shard.swap]
    by_cases hr : ref c.st.length = true
    · rw [if_pos hr]; exact Nat.le_add_right _ _
    · rw [if_neg hr]
      have h2 := swap_count (H := H) (net := net) (Shard.fuel H k) c.shard 0 k (some (makeLink (linkNamePrefix c.shard.size 0 ++ k) nd)) c.t hs hk
      rw [hH] at h2
      generalize Shard.swapValue H net _ _ _ _ _ _ = o at h2
      obtain ⟨r, s', t'⟩ := o
      cases r <;> exact h2
  | setLink h =>
    rename_i k l
    have hk : k ≠ [] := fun h => hne (by rw [h]; rfl)
    rw [exec, Shard.setLinkOp]
    have h2 := swap_count (H := H) (net := net) (Shard.fuel H k) c.shard 0 k (some (Link.rename l (linkNamePrefix c.shard.size 0 ++ k))) c.t hs hk
    rw [hH] at h2
    generalize Shard.swapValue H net _ _ _ _ _ _ = o at h2
    obtain ⟨r, s', t'⟩ := o
    cases r <;> exact h2
  | remove h =>
    rename_i k
    have hk : k ≠ [] := fun h => hne (by rw [h]; rfl)
    rw [exec, Shard.take]
    have h2 := swap_count (H := H) (net := net) (Shard.fuel H k) c.shard 0 k none c.t hs hk
    rw [hH] at h2
    generalize Shard.swapValue H net _ _ _ _ _ _ = o at h2
    obtain ⟨r, s', t'⟩ := o
    cases r <;> exact h2
  | take h =>
    rename_i k
    have hk : k ≠ [] := fun h => hne (by rw [h]; rfl)
    rw [exec, Shard.take]
    have h2 := swap_count (H := H) (net := net) (Shard.fuel H k) c.shard 0 k none c.t hs hk
    rw [hH] at h2
    generalize Shard.swapValue H net _ _ _ _ _ _ = o at h2
    obtain ⟨r, s', t'⟩ := o
    cases r <;> exact h2
  | find h =>
    rename_i k
    rw [exec, Shard.find]
    have h2 := getValue_count (H := H) (net := net) (Shard.fuel H k) c.shard 0 k c.t hs
    rw [hH] at h2
    generalize Shard.getValue H net _ _ _ _ _ = o at h2
    obtain ⟨r, s', t'⟩ := o
    rcases r with _ | _ | _ <;> exact h2
  | node =>
    rw [exec]
    split <;> exact Nat.le_add_right _ _
  | setCidBuilder => exact Nat.le_add_right _ _

theorem execAll_kept {net : Net} {ref : Nat → Bool} {K : Bytes → Prop} : ∀ (ops : List Op) (c : Cfg), Sh n c.shard → (∀ op ∈ ops, About K op) → NoEmptyName ops →
    Kept H n 0 c.shard (execAll H net ref ops c).shard
  | [], c, hs, _, _ => .refl hs
  | op :: ops, c, hs, ho, hne => by
    obtain ⟨_, h2⟩ := exec_local (H := H) (net := net) (net' := net) (ref := ref) hs (ho op (by simp)) (hne op (by simp)) (fun _ _ _ _ _ => rfl)
    exact h2.trans (execAll_kept ops _ h2.ok (fun o h => ho o (by simp [h])) (fun o h => hne o (by simp [h])))

end

/-! ### Serialised tries -/

section
variable {H : Hash} {lg : Nat}

theorem load_slot {size : Nat} (hv : ValidSize size) {cs : List Kid} (hl : ∀ i ∈ idxs cs, i < size) (hs : Sorted cs) {b : Option Builder} {i : Nat} (hi : i < size) {sl : Slot}
    (h : slotAt (.mk size (bfOf size (idxs cs)) ((kidLinks size cs).map Slot.link) b [] none) i = some sl) :
    ∃ t, kget cs i = some t ∧ sl = .link (.mk (linkNamePrefix size i ++ t.tkey) (t.tsz (t.toN size)) (t.toN size)) := by
  have hb := isBf_bfOf (valid_dvd hv) hl
  rw [slotAt] at h
  split at h
  · rename_i hbit
    rw [Shard.sliceIndex] at h
    simp only [Shard.bf, Shard.slots] at h hbit
    rw [onesBefore_eq hb hi, kpos_eq hs] at h
    rw [hb.bit i hi, decide_eq_true_eq] at hbit
    rcases sorted_split hs i with ⟨_, h2, _⟩ | ⟨t0, hg0, _, X, Y, rfl, hX, hY⟩
    · exact absurd hbit h2
    refine ⟨t0, hg0, ?_⟩
    rw [(present_ops (t := t0) hX hY).2.2, kidLinks_eq] at h
    simp at h
    exact h.symm
  · cases h

theorem uni_toN (hp : HP H lg) (n : Nat) : ∀ (d : Nat) (P : Bytes → Prop) (b : Builder) (cs : List Kid), WF (hix H lg) (2 ^ lg) n d P cs →
    UniN (2 ^ lg) ((Trie.node b cs).toN (2 ^ lg)) := by
  induction n with
  | zero => intro d P b cs hw; exact hw.elim
  | succ n ih =>
    intro d P b cs hw
    rw [Trie.toN, UniN]
    constructor
    · intro c hc
      rw [load_toN hp.valid (wf_idx hw)] at hc
      cases hc; rfl
    · rw [uniL_iff]
      intro l hl hn
      obtain ⟨i, t, hm, rfl⟩ := kidLinks_mem hl
      have hg := mem_kget hw.sorted hm
      have hi := (hw.2 _ hm).1
      simp only [Kid.idx_mk] at hi
      simp only [Link.name, List.length_append, prefix_length hp.valid hi] at hn
      cases t with
      | leaf k v =>
        have := (hw.leaf hg).2.2.2
        simp only [Trie.tkey] at hn
        exact absurd (List.length_eq_zero_iff.mp (by omega)) this
      | node b' cs' => exact ih _ _ b' cs' (hw.node hg).2

theorem need_path (hp : HP H lg) (n : Nat) : ∀ (d : Nat) (P : Bytes → Prop) (b : Builder) (cs : List Kid), n + d = levels lg → WF (hix H lg) (2 ^ lg) n d P cs →
    ∀ (s : Shard) (k : Bytes) (x : Node), newHamtFromDag ((Trie.node b cs).toN (2 ^ lg)) = .ok s → Need H k (d * lg) s x →
    ∃ p, SubShardAt (digits (2 ^ lg)) ((Trie.node b cs).toN (2 ^ lg)) p x ∧ p ≠ [] ∧ p.length < n ∧ ∀ j < p.length, p[j]? = some (hix H lg k (d + j)) := by
  induction n with
  | zero => intro d P b cs _ hw; exact hw.elim
  | succ n ih =>
    intro d P b cs hd hw s k x hs hx
    rw [Trie.toN] at hs ⊢
    rw [load_toN hp.valid (wf_idx hw)] at hs
    cases hs
    rw [need_iff] at hx
    obtain ⟨i, d', hn, hx⟩ := hx
    rw [lg_eq hp rfl, next_ok hp k (n := n) (d := d) (by omega)] at hn
    simp only [Except.ok.injEq, Prod.mk.injEq] at hn
    obtain ⟨rfl, rfl⟩ := hn
    have hi : hix H lg k d < 2 ^ lg := hix_lt k d
    generalize hsl : slotAt _ _ = o at hx
    cases o with
    | none => exact hx.elim
    | some sl =>
      obtain ⟨t, hg, rfl⟩ := load_slot hp.valid (wf_idx hw) hw.sorted hi hsl
      obtain ⟨hct, hx⟩ := hx
      have hm := kget_mem hg
      have hlen : (linkNamePrefix (2 ^ lg) (hix H lg k d)).length = maxpadlen (2 ^ lg) := prefix_length hp.valid hi
      cases t with
      | leaf k v =>
        have := (hw.leaf hg).2.2.2
        rw [childLinkType] at hct
        simp only [Shard.size, Link.name, Trie.tkey, List.length_append, hlen] at hct
        rw [if_neg (by omega), if_neg (by have := List.length_pos_iff.mpr this; omega)] at hct
        cases hct
      | node b' cs' =>
        have hlink : ∀ {p x}, SubShardAt (digits (2 ^ lg)) ((Trie.node b' cs').toN (2 ^ lg)) p x →
            SubShardAt (digits (2 ^ lg)) (.proto (shardData (2 ^ lg) (idxs cs)) (kidLinks (2 ^ lg) cs) b) (hix H lg k d :: p) x := by
          intro p x hp'
          refine .link (l := .mk (linkNamePrefix (2 ^ lg) (hix H lg k d) ++ (Trie.node b' cs').tkey) ((Trie.node b' cs').tsz ((Trie.node b' cs').toN (2 ^ lg))) ((Trie.node b' cs').toN (2 ^ lg))) ?_ ?_ ?_ hp'
          · rw [kidLinks_eq, List.mem_map]; exact ⟨_, hm, rfl⟩
          · simp [Link.name, Trie.tkey, hlen, maxpadlen_digits hp.valid]
          · simp [Link.name, Trie.tkey, prefix_hex hp.valid hi]
        have hw' := (hw.node hg).2
        rcases hx with rfl | ⟨c, hc, hx⟩
        · refine ⟨[hix H lg k d], hlink (.self _), by simp, ?_, ?_⟩
          · cases n with
            | zero => exact hw'.elim
            | succ n => simp
          · intro j hj
            have : j = 0 := by simpa using hj
            subst this; rfl
        · obtain ⟨p, h1, h2, h3, h4⟩ := ih (d + 1) _ b' cs' (by omega) hw' c k x hc hx
          refine ⟨hix H lg k d :: p, hlink h1, by simp, by simp; omega, ?_⟩
          intro j hj
          cases j with
          | zero => rfl
          | succ j => rw [List.getElem?_cons_succ, h4 j (by simpa using hj), show d + 1 + j = d + (j + 1) by omega]

theorem slices_get (w : Nat) : ∀ (m : Nat) (l : List Bool) (j : Nat), j < m → (slices l (List.replicate m w))[j]? = some (bitsVal ((l.drop (j * w)).take w))
  | 0, _, _, h => by omega
  | m + 1, l, 0, _ => by simp [List.replicate_succ, slices]
  | m + 1, l, j + 1, h => by
    rw [List.replicate_succ, slices, List.getElem?_cons_succ, slices_get w m _ j (by omega), List.drop_drop, show w + j * w = (j + 1) * w by ring]

theorem slices_length : ∀ (l : List Bool) (ws : List Nat), (slices l ws).length = ws.length
  | _, [] => rfl
  | l, w :: ws => by rw [slices, List.length_cons, slices_length, List.length_cons]

theorem hashPath_of (hp : HP H lg) {k : Bytes} {p : List Nat} (hl : p.length ≤ levels lg) (h : ∀ j < p.length, p[j]? = some (hix H lg k j)) : HashPath H lg k p := by
  refine List.ext_getElem? fun j => ?_
  by_cases hj : j < p.length
  · rw [h j hj, slices_get lg _ _ _ hj, hix_slice hp k (by omega)]
  · rw [List.getElem?_eq_none (by omega), List.getElem?_eq_none (by rw [slices_length, List.length_replicate]; omega)]

end

end Unixfs.Hamt
