import Verif.Props.Asked

/-!
# C126: what was added to any directory is found there

The definitions in this file belong to proofs; they model no code.
-/

namespace Unixfs.Props
open Unixfs.Hamt hiding exec execAll results NoEmptyName lastWrite Cfg
open Unixfs.Dir Unixfs.File Unixfs.Spec

variable {net net' : Net} {t t' : Nat} {H : Hash}

/-- The width of the shard and those of its loaded children are valid, and the bitfields have that many bits. -/
inductive Wide : Shard → Prop
  | mk {s : Shard} (hv : ValidSize s.size) (hl : s.bf.length * 8 = s.size) (h : ∀ c, Slot.child c ∈ s.slots → Wide c) : Wide s

theorem Wide.valid {s : Shard} (h : Wide s) : ValidSize s.size := by cases h; assumption
theorem Wide.len {s : Shard} (h : Wide s) : s.bf.length * 8 = s.size := by cases h; assumption
theorem Wide.child {s c : Shard} (h : Wide s) (hc : Slot.child c ∈ s.slots) : Wide c := by cases h with | mk _ _ h => exact h c hc

theorem wide_make {z : Int} {key : Bytes} {v : Option Link} {s : Shard} (h : makeShard z key v = .ok s) : Wide s := by
  obtain ⟨k, h1, h2, h3, rfl⟩ := (makeShard_iff _ _ _ _).mp h
  have hv : ValidSize (2 ^ k) := ⟨k, h1, h2, rfl⟩
  exact .mk hv (isBf_new (valid_dvd hv)).len (fun c hc => by cases hc)

theorem wide_load {nd : Node} {s : Shard} (h : newHamtFromDag nd = .ok s) : Wide s := by
  obtain ⟨d, ls, b, m, k, _, _, _, h1, h2, _, rfl⟩ := load_inv h
  have hv : ValidSize (2 ^ k) := ⟨k, h1, h2, rfl⟩
  refine .mk hv ?_ (fun c hc => ?_)
  · have := (isBf_new (valid_dvd hv)).len
    simp only [Shard.bf, Shard.size, bfSetBytes_length]
    exact this
  · obtain ⟨l, _, hl⟩ := List.mem_map.mp hc
    cases hl

theorem Wide.set {s c : Shard} {i : Nat} (h : Wide s) (hc : Wide c) : Wide (s.setChild c i) := by
  obtain ⟨size, bf, slots, b, key, val⟩ := s
  refine .mk h.valid h.len (fun x hx => ?_)
  rcases List.mem_or_eq_of_mem_set hx with hx | hx
  · exact h.child hx
  · cases hx; exact hc

theorem Wide.get {s c s1 : Shard} {i t1 : Nat} (h : Wide s) (hg : s.get net i t = (.ok (c, s1), t1)) : Wide c ∧ Wide s1 := by
  unfold Shard.get at hg
  split at hg
  · cases hg
  · next hs => cases hg; exact ⟨h.child (List.mem_of_getElem? hs), h⟩
  · split at hg
    · cases hg
    · split at hg
      · split at hg
        · cases hg
        · next hl => cases hg; exact ⟨wide_load hl, h.set (wide_load hl)⟩
      · cases hg
    · split at hg
      · cases hg
      · next hl => cases hg; exact ⟨wide_make hl, h.set (wide_make hl)⟩

theorem Wide.lt {s : Shard} (h : Wide s) {b : Bytes} {c i c' : Nat} (hn : nextBits b c s.lg = .ok (i, c')) : i < s.size := by
  have := lg_spec h.valid
  rw [← this.2]
  exact (nextBits_inv this.1 hn).1

theorem Wide.bits {s : Shard} (h : Wide s) : IsBf s.size s.bf ((List.range s.size).filter (fun i => bfBit s.bf i)) :=
  ⟨h.len, fun i hi => by simp [hi]⟩

/-- After a bit was set, it is set, and its position is where it was put. -/
theorem set_bit {size : Nat} {bf : Bytes} {l : List Nat} {i : Nat} (h : IsBf size bf l) (hi : i < size) : bfBit (bfSet bf i) i = true ∧ bfOnesBefore (bfSet bf i) i = bfOnesBefore bf i := by
  have h' : IsBf size (bfSet bf i) (i :: l) := isBf_set h hi (fun j => List.mem_cons)
  refine ⟨by rw [h'.bit i hi]; simp, ?_⟩
  rw [onesBefore_eq h' hi, onesBefore_eq h hi]
  congr 1
  refine List.filter_congr (fun j hj => ?_)
  have : j ≠ i := by have := List.mem_range.mp hj; omega
  simp [this]

theorem insert_inv {s s' : Shard} {key : Bytes} {v : Link} {idx : Nat} (h : s.insert key (some v) idx = .ok s') :
    ∃ sd, sd = Shard.mk 256 (bfNew 256) [] none key (some (Link.rename v (linkNamePrefix s.size idx ++ key))) ∧ Wide sd ∧ s.sliceIndex idx ≤ s.slots.length ∧
      s' = s.withSlots (bfSet s.bf idx) (s.slots.take (s.sliceIndex idx) ++ .child sd :: s.slots.drop (s.sliceIndex idx)) := by
  unfold Shard.insert at h
  dsimp only at h
  cases hm : makeShard 256 key (some (Link.rename v (linkNamePrefix s.size idx ++ key))) with
  | error e => rw [hm] at h; cases h
  | ok sd =>
    rw [hm] at h
    dsimp only at h
    have h256 : sd = Shard.mk 256 (bfNew 256) [] none key (some (Link.rename v (linkNamePrefix s.size idx ++ key))) := by
      have := makeShard_valid (size := 256) ⟨8, by omega, by omega, rfl⟩ key (some (Link.rename v (linkNamePrefix s.size idx ++ key)))
      rw [show ((256 : Nat) : Int) = 256 from rfl, hm] at this
      cases this; rfl
    split at h
    · cases h
    · cases h
      exact ⟨sd, h256, wide_make hm, by omega, rfl⟩

theorem keep_withSlots (s : Shard) (bf : Bytes) (l : List Slot) : (s.withSlots bf l).key = s.key ∧ (s.withSlots bf l).val = s.val ∧ (s.withSlots bf l).size = s.size := by cases s; exact ⟨rfl, rfl, rfl⟩

theorem keep_get {s c s1 : Shard} {i t1 : Nat} (h : s.get net i t = (.ok (c, s1), t1)) : s1.key = s.key ∧ s1.val = s.val ∧ s1.size = s.size ∧ s1.bf = s.bf ∧ s1.slots.length = s.slots.length ∧
    i < s.slots.length := by
  have hlt : i < s.slots.length := by
    by_contra hn
    unfold Shard.get at h
    rw [List.getElem?_eq_none (by omega)] at h
    cases h
  rcases get_state h with rfl | rfl
  · exact ⟨rfl, rfl, rfl, rfl, rfl, hlt⟩
  · cases s; exact ⟨rfl, rfl, rfl, rfl, List.length_set, hlt⟩

/-- A call that sets keeps what the shard itself is, and its width. -/
theorem swap_keep : ∀ (f : Nat) (s s' : Shard) (n : Nat) (key : Bytes) (v : Link) (t t1 : Nat) (o : Option Link), Shard.swapValue H net f s n key (some v) t = (.ok o, s', t1) → Wide s →
    s'.key = s.key ∧ s'.val = s.val ∧ s'.size = s.size ∧ Wide s'
  | 0, s, s', n, key, v, t, t1, o, h, hw => by cases h
  | f + 1, s, s', n, key, v, t, t1, o, h, hw => by
    unfold Shard.swapValue at h
    cases hx : nextBits (H key) n s.lg with
    | error e => rw [hx] at h; cases h
    | ok x =>
      obtain ⟨idx, n'⟩ := x
      rw [hx] at h
      dsimp only at h
      split at h
      · cases hi : s.insert key (some v) idx with
        | error e => rw [hi] at h; cases h
        | ok s2 =>
          rw [hi] at h
          cases h
          obtain ⟨sd, _, hwd, _, rfl⟩ := insert_inv hi
          obtain ⟨a, b, c⟩ := keep_withSlots s (bfSet s.bf idx) (s.slots.take (s.sliceIndex idx) ++ .child sd :: s.slots.drop (s.sliceIndex idx))
          refine ⟨a, b, c, .mk (by rw [c]; exact hw.valid) (by rw [c, bf_withSlots]; simp only [bfSet, List.length_modify]; exact hw.len) ?_⟩
          intro y hy
          rw [slots_withSlots] at hy
          rcases List.mem_append.mp hy with hy | hy
          · exact hw.child (List.mem_of_mem_take hy)
          · rcases List.mem_cons.mp hy with hy | hy
            · cases hy; exact hwd
            · exact hw.child (List.mem_of_mem_drop hy)
      · rcases hg : s.get net (s.sliceIndex idx) t with ⟨_ | ⟨c, s1⟩, ta⟩
        · rw [hg] at h; cases h
        rw [hg] at h
        dsimp only at h
        obtain ⟨k1, k2, k3, _, _, _⟩ := keep_get hg
        obtain ⟨wc, ws⟩ := hw.get hg
        have fin : ∀ c', Wide c' → (s1.setChild c' (s.sliceIndex idx)).key = s.key ∧ (s1.setChild c' (s.sliceIndex idx)).val = s.val ∧ (s1.setChild c' (s.sliceIndex idx)).size = s.size ∧
            Wide (s1.setChild c' (s.sliceIndex idx)) := by
          intro c' hc'
          obtain ⟨a, b, d⟩ := keep_withSlots s1 s1.bf (s1.slots.set (s.sliceIndex idx) (.child c'))
          exact ⟨a.trans k1, b.trans k2, d.trans k3, ws.set hc'⟩
        split at h
        · next hv =>
          split at h
          · cases h
            refine fin _ ?_
            cases c
            exact .mk wc.valid wc.len (fun x hx => wc.child hx)
          · cases hn : newShard s1.size with
            | error e => rw [hn] at h; cases h
            | ok c0 =>
              rw [hn] at h
              dsimp only at h
              have w0 : Wide (c0.setCidBuilder s1.builder) := by
                have := wide_make hn
                cases c0
                exact .mk this.valid this.len (fun x hx => this.child hx)
              rcases h1 : Shard.swapValue H net f (c0.setCidBuilder s1.builder) n' key (some v) ta with ⟨_ | o1, c1, t2⟩
              · rw [h1] at h; cases h
              rw [h1] at h
              dsimp only at h
              have w1 := (swap_keep f _ _ _ _ _ _ _ _ h1 w0).2.2.2
              cases hcv : c.val with
              | none => unfold Shard.isValueNode at hv; rw [hcv] at hv; simp at hv
              | some u =>
                rw [hcv] at h
                rcases h2 : Shard.swapValue H net f c1 n' c.key (some u) t2 with ⟨_ | o2, c2, t3⟩
                · rw [h2] at h; cases h
                rw [h2] at h
                cases h
                exact fin _ (swap_keep f _ _ _ _ _ _ _ _ h2 w1).2.2.2
        · rcases h1 : Shard.swapValue H net f c n' key (some v) ta with ⟨_ | o1, c1, t2⟩
          · rw [h1] at h; cases h
          rw [h1] at h
          cases h
          exact fin _ (swap_keep f _ _ _ _ _ _ _ _ h1 wc).2.2.2

/-- One step of a lookup, at a child that is loaded. -/
theorem getValue_child {s c : Shard} {f n n' idx u : Nat} {key : Bytes} (hx : nextBits (H key) n s.lg = .ok (idx, n')) (hb : bfBit s.bf idx = true)
    (hs : s.slots[s.sliceIndex idx]? = some (.child c)) : (Shard.getValue H net (f + 1) s n key u).1 =
      if c.isValueNode then (if c.key = key then .ok c.val else .error .notExist) else (Shard.getValue H net f c n' key u).1 := by
  conv_lhs => unfold Shard.getValue
  rw [hx]
  dsimp only
  rw [if_neg (by rw [hb]; simp)]
  have hg : s.get net (s.sliceIndex idx) u = (.ok (c, s), u) := by unfold Shard.get; rw [hs]
  rw [hg]
  dsimp only
  split
  · split <;> rfl
  · rcases Shard.getValue H net f c n' key u with ⟨r, c', t'⟩
    rfl

theorem value_found {key nm : Bytes} {v : Link} {b : Option Builder} (hk : key ≠ []) :
    (Shard.mk 256 (bfNew 256) [] b key (some (Link.rename v nm))).isValueNode = true := by
  simp [Shard.isValueNode, Shard.key, Shard.val, hk]

theorem one_before (a : Nat) : ∀ i : Nat, ((List.range i).filter (· ∈ [a])).length = if a < i then 1 else 0
  | 0 => by simp
  | i + 1 => by
    rw [List.range_succ, List.filter_append, List.length_append, one_before a i]
    by_cases h : i = a
    · subst h; simp
    · have hf : ([i].filter (· ∈ [a])) = [] := by simp [h]
      rw [hf]
      by_cases h2 : a < i
      · rw [if_pos h2, if_pos (by omega)]; rfl
      · rw [if_neg h2, if_neg (by omega)]; rfl

/-- Two entries set in an empty shard are both found. -/
theorem pair_found : ∀ (f w : Nat) (b : Option Builder) (n : Nat) (k1 k2 : Bytes) (v1 v2 : Link) (t1 t1' t2 t2' : Nat) (o1 o2 : Option Link) (c1 c2 : Shard) (u u' : Nat), ValidSize w → k1 ≠ [] →
    k2 ≠ [] → k1 ≠ k2 → Shard.swapValue H net f (.mk w (bfNew w) [] b [] none) n k1 (some v1) t1 = (.ok o1, c1, t1') → Shard.swapValue H net f c1 n k2 (some v2) t2 = (.ok o2, c2, t2') →
    tgt (Shard.getValue H net' f c2 n k1 u).1 = .ok (some v1.target) ∧ tgt (Shard.getValue H net' f c2 n k2 u').1 = .ok (some v2.target)
  | 0, w, b, n, k1, k2, v1, v2, t1, t1', t2, t2', o1, o2, c1, c2, u, u', hv, hk1, hk2, hk, h1, h2 => by cases h1
  | f + 1, w, b, n, k1, k2, v1, v2, t1, t1', t2, t2', o1, o2, c1, c2, u, u', hv, hk1, hk2, hk, h1, h2 => by
    have w0 : Wide (.mk w (bfNew w) [] b [] none) := .mk hv (isBf_new (valid_dvd hv)).len (fun c hc => by cases hc)
    have b0 := isBf_new (valid_dvd hv)
    unfold Shard.swapValue at h1
    cases hx1 : nextBits (H k1) n (Shard.mk w (bfNew w) [] b [] none).lg with
    | error e => rw [hx1] at h1; cases h1
    | ok x =>
      obtain ⟨i1, n1⟩ := x
      rw [hx1] at h1
      dsimp only at h1
      have hi1 : i1 < w := w0.lt hx1
      rw [if_pos (show bfBit (Shard.mk w (bfNew w) [] b [] none).bf i1 = false from bfBit_new w i1)] at h1
      cases hin : (Shard.mk w (bfNew w) [] b [] none).insert k1 (some v1) i1 with
      | error e => rw [hin] at h1; cases h1
      | ok s1 =>
        rw [hin] at h1
        obtain ⟨sd1, hsd1, _, _, hs1⟩ := insert_inv hin
        have hs1' : s1 = .mk w (bfSet (bfNew w) i1) [.child sd1] b [] none := by
          rw [hs1]
          simp [Shard.withSlots, Shard.slots, Shard.bf]
        have b1 : IsBf w (bfSet (bfNew w) i1) [i1] := isBf_set b0 hi1 (fun j => by simp)
        have hc1 : c1 = .mk w (bfSet (bfNew w) i1) [.child sd1] b [] none := by rw [← hs1']; cases h1; rfl
        clear h1 hin hs1 hs1'
        subst hc1
        have hlg : ∀ bf sl, (Shard.mk w bf sl b [] none).lg = (Shard.mk w (bfNew w) [] b [] none).lg := fun _ _ => rfl
        have hval1 : sd1.isValueNode = true := by rw [hsd1]; exact value_found hk1
        have hkey1 : sd1.key = k1 := by rw [hsd1]; rfl
        have hvv1 : tgt (.ok sd1.val) = .ok (some v1.target) := by rw [hsd1]; rfl
        unfold Shard.swapValue at h2
        rw [hlg] at h2
        cases hx2 : nextBits (H k2) n (Shard.mk w (bfNew w) [] b [] none).lg with
        | error e => rw [hx2] at h2; cases h2
        | ok x =>
          obtain ⟨i2, n2⟩ := x
          rw [hx2] at h2
          dsimp only at h2
          have hi2 : i2 < w := w0.lt hx2
          have hbit := b1.bit i2 hi2
          by_cases hii : i2 = i1
          · subst hii
            have hsl : (Shard.mk w (bfSet (bfNew w) i2) [.child sd1] b [] none).sliceIndex i2 = 0 := by
              show bfOnesBefore (bfSet (bfNew w) i2) i2 = 0
              rw [onesBefore_eq b1 hi2, one_before, if_neg (by omega)]
            rw [if_neg (by show ¬ bfBit (bfSet (bfNew w) i2) i2 = false; rw [hbit]; simp), hsl] at h2
            have hg : (Shard.mk w (bfSet (bfNew w) i2) [.child sd1] b [] none).get net 0 t2 = (.ok (sd1, .mk w (bfSet (bfNew w) i2) [.child sd1] b [] none), t2) := rfl
            rw [hg] at h2
            dsimp only at h2
            rw [if_pos hval1, if_neg (by rw [hkey1]; exact hk)] at h2
            cases hn : newShard (Shard.mk w (bfSet (bfNew w) i2) [.child sd1] b [] none).size with
            | error e => rw [hn] at h2; cases h2
            | ok c0 =>
              rw [hn] at h2
              dsimp only at h2
              have hc0 : c0 = .mk w (bfNew w) [] none [] none := by
                have := makeShard_valid hv [] none
                rw [show newShard (Shard.mk w (bfSet (bfNew w) i2) [.child sd1] b [] none).size = makeShard w [] none from rfl, this] at hn
                cases hn; rfl
              subst hc0
              rcases hA : Shard.swapValue H net f ((Shard.mk w (bfNew w) [] none [] none).setCidBuilder (Shard.mk w (bfSet (bfNew w) i2) [.child sd1] b [] none).builder) n2 k2 (some v2) t2
                with ⟨_ | oa, ca, ta⟩
              · rw [hA] at h2; cases h2
              rw [hA] at h2
              dsimp only at h2
              rcases hB : Shard.swapValue H net f ca n2 sd1.key sd1.val ta with ⟨_ | ob, cb, tb⟩
              · rw [hB] at h2; cases h2
              rw [hB] at h2
              dsimp only at h2
              have hc2 : c2 = .mk w (bfSet (bfNew w) i2) [.child cb] b [] none := by cases h2; rfl
              subst hc2
              rw [hkey1, show sd1.val = some (Link.rename v1 (linkNamePrefix w i2 ++ k1)) by rw [hsd1]; rfl] at hB
              have hA' : Shard.swapValue H net f (.mk w (bfNew w) [] b [] none) n2 k2 (some v2) t2 = (.ok oa, ca, ta) := hA
              have hn12 : n1 = n2 := by
                have a1 := (nextBits_inv (lg_spec w0.valid).1 hx1).2
                have a2 := (nextBits_inv (lg_spec w0.valid).1 hx2).2
                omega
              subst hn12
              obtain ⟨p2, p1⟩ := pair_found f w b n1 k2 k1 v2 _ _ _ _ _ _ _ _ _ u' u hv hk2 hk1 hk.symm hA' hB
              have ka := swap_keep f _ _ _ _ _ _ _ _ hA' w0
              have kb := swap_keep f _ _ _ _ _ _ _ _ hB ka.2.2.2
              have hnv : cb.isValueNode = false := by
                unfold Shard.isValueNode
                rw [kb.1, ka.1]
                rfl
              have hsl' : (Shard.mk w (bfSet (bfNew w) i2) [.child cb] b [] none).sliceIndex i2 = 0 := hsl
              have hbt : bfBit (Shard.mk w (bfSet (bfNew w) i2) [.child cb] b [] none).bf i2 = true := by
                show bfBit (bfSet (bfNew w) i2) i2 = true
                rw [hbit]; simp
              constructor
              · rw [getValue_child (c := cb) (by rw [hlg]; exact hx1) hbt (by rw [hsl']; rfl), hnv]
                exact p1
              · rw [getValue_child (c := cb) (by rw [hlg]; exact hx2) hbt (by rw [hsl']; rfl), hnv]
                exact p2
          · rw [if_pos (by show bfBit (bfSet (bfNew w) i1) i2 = false; rw [hbit]; simp [hii])] at h2
            cases hin : (Shard.mk w (bfSet (bfNew w) i1) [.child sd1] b [] none).insert k2 (some v2) i2 with
            | error e => rw [hin] at h2; cases h2
            | ok s2 =>
              rw [hin] at h2
              have hc2 : c2 = s2 := by cases h2; rfl
              subst hc2
              obtain ⟨sd2, hsd2, _, _, hs2⟩ := insert_inv hin
              have hval2 : sd2.isValueNode = true := by rw [hsd2]; exact value_found hk2
              have hkey2 : sd2.key = k2 := by rw [hsd2]; rfl
              have hvv2 : tgt (.ok sd2.val) = .ok (some v2.target) := by rw [hsd2]; rfl
              have hpos : (Shard.mk w (bfSet (bfNew w) i1) [.child sd1] b [] none).sliceIndex i2 = if i1 < i2 then 1 else 0 := by
                show bfOnesBefore (bfSet (bfNew w) i1) i2 = _
                rw [onesBefore_eq b1 hi2, one_before]
              have hb2 := set_bit b1 hi2
              have b2 : IsBf w (bfSet (bfSet (bfNew w) i1) i2) [i1, i2] := isBf_set b1 hi2 (fun j => by simp [or_comm])
              have hbi1 : bfBit (bfSet (bfSet (bfNew w) i1) i2) i1 = true := by rw [b2.bit i1 hi1]; simp
              have hp1 : bfOnesBefore (bfSet (bfSet (bfNew w) i1) i2) i1 = if i2 < i1 then 1 else 0 := by
                rw [onesBefore_eq b2 hi1, ← one_before i2 i1]
                congr 1
                refine List.filter_congr (fun j hj => ?_)
                have : j ≠ i1 := by have := List.mem_range.mp hj; omega
                simp [this]
              have hp2 : bfOnesBefore (bfSet (bfSet (bfNew w) i1) i2) i2 = if i1 < i2 then 1 else 0 := by rw [hb2.2]; exact hpos
              rw [hpos] at hs2
              have hs2' : c2 = .mk w (bfSet (bfSet (bfNew w) i1) i2) (if i1 < i2 then [.child sd1, .child sd2] else [.child sd2, .child sd1]) b [] none := by
                rw [hs2]
                by_cases hlt : i1 < i2
                · simp [hlt, Shard.withSlots, Shard.slots, Shard.bf]
                · simp [hlt, Shard.withSlots, Shard.slots, Shard.bf]
              clear hs2 hin h2
              subst hs2'
              constructor
              · rw [getValue_child (s := .mk w (bfSet (bfSet (bfNew w) i1) i2) (if i1 < i2 then [.child sd1, .child sd2] else [.child sd2, .child sd1]) b [] none) (c := sd1) (by rw [hlg]; exact hx1) hbi1 (by
                  show (if i1 < i2 then [Slot.child sd1, .child sd2] else [.child sd2, .child sd1])[bfOnesBefore (bfSet (bfSet (bfNew w) i1) i2) i1]? = _
                  rw [hp1]
                  by_cases hlt : i1 < i2
                  · rw [if_pos hlt, if_neg (by omega)]; rfl
                  · rw [if_neg hlt, if_pos (by omega)]; rfl), if_pos hval1, if_pos hkey1]
                exact hvv1
              · rw [getValue_child (s := .mk w (bfSet (bfSet (bfNew w) i1) i2) (if i1 < i2 then [.child sd1, .child sd2] else [.child sd2, .child sd1]) b [] none) (c := sd2) (by rw [hlg]; exact hx2) hb2.1 (by
                  show (if i1 < i2 then [Slot.child sd1, .child sd2] else [.child sd2, .child sd1])[bfOnesBefore (bfSet (bfSet (bfNew w) i1) i2) i2]? = _
                  rw [hp2]
                  by_cases hlt : i1 < i2
                  · rw [if_pos hlt, if_pos hlt]; rfl
                  · rw [if_neg hlt, if_neg hlt]; rfl), if_pos hval2, if_pos hkey2]
                exact hvv2

/-- What was set is found, in any shard. -/
theorem add_found : ∀ (f : Nat) (s s' : Shard) (n : Nat) (key : Bytes) (v : Link) (t t1 u : Nat) (o : Option Link), key ≠ [] → Wide s →
    Shard.swapValue H net f s n key (some v) t = (.ok o, s', t1) → tgt (Shard.getValue H net' f s' n key u).1 = .ok (some v.target)
  | 0, s, s', n, key, v, t, t1, u, o, hk, hw, h => by cases h
  | f + 1, s, s', n, key, v, t, t1, u, o, hk, hw, h => by
    unfold Shard.swapValue at h
    cases hx : nextBits (H key) n s.lg with
    | error e => rw [hx] at h; cases h
    | ok x =>
      obtain ⟨idx, n'⟩ := x
      rw [hx] at h
      dsimp only at h
      have hidx := hw.lt hx
      split at h
      · cases hi : s.insert key (some v) idx with
        | error e => rw [hi] at h; cases h
        | ok s2 =>
          rw [hi] at h
          cases h
          obtain ⟨sd, hsd, _, hle, hs⟩ := insert_inv hi
          have hb := set_bit hw.bits hidx
          rw [getValue_child (c := sd) (idx := idx) (n' := n') (by rw [hs]; unfold Shard.lg at hx ⊢; rw [size_withSlots]; exact hx) (by rw [hs, bf_withSlots]; exact hb.1) (by
            have e : s'.sliceIndex idx = s.sliceIndex idx := by unfold Shard.sliceIndex; rw [hs, bf_withSlots]; exact hb.2
            rw [e, hs, slots_withSlots, List.getElem?_append_right (by rw [List.length_take]; omega), List.length_take, Nat.min_eq_left hle, Nat.sub_self]
            rfl), if_pos (by rw [hsd]; exact value_found hk), if_pos (by rw [hsd]; rfl)]
          rw [hsd]
          rfl
      · next hbit =>
        have hbit : bfBit s.bf idx = true := by simpa using hbit
        rcases hg : s.get net (s.sliceIndex idx) t with ⟨_ | ⟨c, s1⟩, ta⟩
        · rw [hg] at h; cases h
        rw [hg] at h
        dsimp only at h
        obtain ⟨k1, k2, k3, k4, k5, k6⟩ := keep_get hg
        obtain ⟨wc, ws⟩ := hw.get hg
        have fin : ∀ c', (Shard.getValue H net' (f + 1) (s1.setChild c' (s.sliceIndex idx)) n key u).1 =
            if c'.isValueNode then (if c'.key = key then .ok c'.val else .error .notExist) else (Shard.getValue H net' f c' n' key u).1 := by
          intro c'
          have e1 : (s1.setChild c' (s.sliceIndex idx)).bf = s.bf := by rw [setChild_set, bf_withSlots, k4]
          refine getValue_child (by unfold Shard.lg at hx ⊢; rw [(setChild_slots s1 c' _).2, k3]; exact hx) (by rw [e1]; exact hbit) ?_
          have e2 : (s1.setChild c' (s.sliceIndex idx)).sliceIndex idx = s.sliceIndex idx := by
            show bfOnesBefore (s1.setChild c' (s.sliceIndex idx)).bf idx = bfOnesBefore s.bf idx
            rw [e1]
          rw [e2, (setChild_slots s1 c' _).1, List.getElem?_set_self (by rw [k5]; exact k6)]
        split at h
        · next hv =>
          split at h
          · next hkk =>
            cases h
            rw [fin, if_pos (by cases c; unfold Shard.isValueNode at hv ⊢; simp only [Shard.withVal, Shard.key, Shard.val] at hv ⊢; simp at hv ⊢; exact hv.1), if_pos (by cases c; exact hkk)]
            cases c
            rfl
          · next hkk =>
            cases hn : newShard s1.size with
            | error e => rw [hn] at h; cases h
            | ok c0 =>
              rw [hn] at h
              dsimp only at h
              have hval := hw.valid
              rw [← k3] at hval
              have hc0 : c0 = .mk s1.size (bfNew s1.size) [] none [] none := by
                have := makeShard_valid hval [] none
                rw [show newShard s1.size = makeShard s1.size [] none from rfl, this] at hn
                cases hn; rfl
              subst hc0
              rcases h1 : Shard.swapValue H net f ((Shard.mk s1.size (bfNew s1.size) [] none [] none).setCidBuilder s1.builder) n' key (some v) ta with ⟨_ | o1, c1, t2⟩
              · rw [h1] at h; cases h
              rw [h1] at h
              dsimp only at h
              cases hcv : c.val with
              | none => unfold Shard.isValueNode at hv; rw [hcv] at hv; simp at hv
              | some y =>
                rw [hcv] at h
                rcases h2 : Shard.swapValue H net f c1 n' c.key (some y) t2 with ⟨_ | o2, c2, t3⟩
                · rw [h2] at h; cases h
                rw [h2] at h
                cases h
                have h1' : Shard.swapValue H net f (.mk s1.size (bfNew s1.size) [] s1.builder [] none) n' key (some v) ta = (.ok o1, c1, t2) := h1
                have w0 : Wide (.mk s1.size (bfNew s1.size) [] s1.builder [] none) := .mk hval (isBf_new (valid_dvd hval)).len (fun c hc => by cases hc)
                have ka := swap_keep f _ _ _ _ _ _ _ _ h1' w0
                have kb := swap_keep f _ _ _ _ _ _ _ _ h2 ka.2.2.2
                have hck : c.key ≠ [] := by
                  intro he
                  unfold Shard.isValueNode at hv
                  rw [he] at hv
                  simp at hv
                rw [fin, if_neg (by unfold Shard.isValueNode; rw [kb.1, ka.1]; simp [Shard.key])]
                exact (pair_found f _ _ _ _ _ _ _ _ _ _ _ _ _ _ _ u u hval hk hck (fun he => hkk he.symm) h1' h2).1
        · next hv =>
          rcases h1 : Shard.swapValue H net f c n' key (some v) ta with ⟨_ | o1, c1, t2⟩
          · rw [h1] at h; cases h
          rw [h1] at h
          cases h
          have ka := swap_keep f _ _ _ _ _ _ _ _ h1 wc
          rw [fin, if_neg (by unfold Shard.isValueNode at hv ⊢; rw [ka.1, ka.2.1]; exact hv)]
          exact add_found f _ _ _ _ _ _ _ _ _ hk wc h1

theorem find_wide : ∀ (f : Nat) (s : Shard) (n : Nat) (key : Bytes) (t : Nat), Wide s → Wide (Shard.getValue H net f s n key t).2.1
  | 0, s, n, key, t, h => h
  | f + 1, s, n, key, t, h => by
    unfold Shard.getValue
    cases hx : nextBits (H key) n s.lg with
    | error e => exact h
    | ok x =>
      obtain ⟨idx, n'⟩ := x
      dsimp only
      split
      · exact h
      rcases hg : s.get net (s.sliceIndex idx) t with ⟨_ | ⟨c, s1⟩, ta⟩
      · exact h
      · obtain ⟨wc, ws⟩ := h.get hg
        dsimp only
        split
        · split <;> exact ws
        · exact ws.set (find_wide f c n' key ta wc)

theorem Wide.loaded {s s' : Shard} (h : Loaded s s') (hw : Wide s) : Wide s' := by
  obtain ⟨n, h⟩ := h
  induction n generalizing s s' with
  | zero => cases h; exact hw
  | succ n ih =>
    obtain ⟨h1, h2, _, _, h5⟩ := h
    refine .mk (by rw [h1]; exact hw.valid) (by rw [h1, h2]; exact hw.len) (fun c hc => ?_)
    obtain ⟨i, hi⟩ := List.getElem?_of_mem hc
    rcases h5 i with h | ⟨d, d', a, b, hd⟩
    · rw [hi] at h
      exact hw.child (List.mem_of_getElem? h.symm)
    · rw [hi] at b
      cases b
      refine ih ?_ hd
      unfold childAt at a
      rcases hg : s.get allNet i 0 with ⟨e | ⟨x, s1⟩, t1⟩
      · rw [hg] at a; cases a
      · rw [hg] at a
        cases a
        exact (hw.get hg).1

/-- A directory whose shards have valid widths, as all loaded ones have. -/
def WideDir : Dir → Prop
  | .basic _ => True
  | .hamt h => Wide h.shard

theorem wide_dir {nd : Node} {d : Dir} (h : newDirectoryFromNode nd = .ok d) : WideDir d := by
  cases d with
  | basic b => trivial
  | hamt x =>
    unfold newDirectoryFromNode at h
    split at h
    · split at h
      · cases h
      · split at h
        · cases h
        · split at h
          · split at h
            · cases h
            · next hl => cases h; exact wide_load hl
          · cases h
    · cases h

theorem SameDir.wide {d d' : Dir} (h : SameDir d d') (hw : WideDir d) : WideDir d' := by
  match d, d', h with
  | .basic _, .basic _, _ => trivial
  | .hamt x, .hamt y, h => exact Wide.loaded h hw

theorem setLinks_wide {env : Env} : ∀ (ls : List Link) (s s' : Shard) (t t' : Nat), Basic.setLinks env ls s t = (.ok s', t') → Wide s → Wide s'
  | [], s, s', t, t', h, hw => by cases h; exact hw
  | l :: ls, s, s', t, t', h, hw => by
    unfold Basic.setLinks Shard.setLinkOp at h
    rcases h1 : Shard.swapValue env.H env.net (Shard.fuel env.H l.name) s 0 l.name (some (Link.rename l (linkNamePrefix s.size 0 ++ l.name))) t with ⟨_ | o, s2, t2⟩
    · rw [h1] at h; cases h
    · rw [h1] at h
      exact setLinks_wide ls _ _ _ _ h (swap_keep _ _ _ _ _ _ _ _ _ h1 hw).2.2.2

/-- `AddChild` of a sharded directory. -/
theorem hamt_add {env env' : Env} {h h' : HamtDir} {name : Bytes} {nd : Node} {t t1 u : Nat} {st st' : List Node} (hn : name ≠ []) (hw : Wide h.shard) (hH : env'.H = env.H)
    (ha : h.addChild env name nd t st = (.ok (), h', t1, st')) : (h'.find env' name u).1 = .ok nd ∨ (h'.find env' name u).1 = .error .notFound := by
  unfold HamtDir.addChild Shard.swap at ha
  split at ha
  · next hs => split at hs <;> cases ha
  · next o s2 t2 st2 hs =>
    have hsh : h'.shard = s2 := by injection ha with _ ha; injection ha with ha _; rw [← ha]
    split at hs
    · cases hs
    · rcases h1 : Shard.swapValue env.H env.net (Shard.fuel env.H name) h.shard 0 name (some (makeLink (linkNamePrefix h.shard.size 0 ++ name) nd)) t with ⟨r, s3, t3⟩
      rw [h1] at hs
      dsimp only at hs
      have hr : r = .ok o := by injection hs
      have hs3 : s3 = s2 := by injection hs with _ hs; injection hs
      subst hr; subst hs3
      have key := add_found (net' := env'.net) _ _ _ _ _ _ _ _ u _ hn hw h1
      unfold HamtDir.find Shard.find
      rw [hsh, hH]
      rcases h2 : Shard.getValue env.H env'.net (Shard.fuel env.H name) s3 0 name u with ⟨r, s4, t4⟩
      rw [h2] at key
      match r, key with
      | .ok (some l), key =>
        have hl : l.target = nd := by
          simp only [tgt, Except.map, Option.map_some] at key
          injection key with key
          injection key
        dsimp only
        rw [hl]
        split
        · exact .inl rfl
        · exact .inr rfl

theorem rm_links (b : Basic) (name : Bytes) (x : Node) : (b.removeFromEstimatedSize name x).links = b.links := by
  unfold Basic.removeFromEstimatedSize
  dsimp only
  split
  · rw [compute_eq]
  · rfl

/-- `AddChild` of a directory that is not sharded. -/
theorem basic_add {b b' : Basic} {name : Bytes} {nd : Node} {env : Env} {u : Nat} (ha : b.addChild name nd = (.ok (), b')) : (b'.find env name u).1 = .ok nd ∨ (b'.find env name u).1 = .error .notFound := by
  have key : ∃ ls ts, b'.links = ls ++ [.mk name ts nd] ∧ ∀ l ∈ ls, l.name ≠ name := by
    unfold Basic.addChild Basic.addLinkChild Basic.removeChild at ha
    cases hl : b.getNodeLink name with
    | none =>
      rw [hl] at ha
      dsimp only at ha
      rw [if_neg (by simp)] at ha
      injection ha with _ ha
      refine ⟨b.links, _, by rw [← ha]; rfl, fun l hm he => ?_⟩
      have := List.find?_eq_none.mp hl l hm
      simp [he] at this
    | some m =>
      rw [hl] at ha
      dsimp only at ha
      injection ha with _ ha
      refine ⟨b.links.filter (fun l => l.name ≠ name), _, by rw [← ha]; simp only [Basic.addToEstimatedSize, rm_links]; rfl, fun l hm => ?_⟩
      simpa using (List.mem_filter.mp hm).2
  obtain ⟨ls, ts, h1, h2⟩ := key
  have hg : b'.getNodeLink name = some (.mk name ts nd) := by
    unfold Basic.getNodeLink
    rw [h1, List.find?_append, List.find?_eq_none.mpr (fun l hl => by simpa using h2 l hl)]
    simp [Link.name]
  unfold Basic.find
  rw [hg]
  dsimp only
  split
  · exact .inl rfl
  · exact .inr rfl

theorem needs_wide {env : Env} {h h' : HamtDir} {thr : Int} {name : Bytes} {nd : Option Node} {t k t' k' : Nat} {r : Except Err Bool} (hw : Wide h.shard)
    (he : h.needsToSwitchToBasicDir env thr name nd t k = (r, h', t', k')) : Wide h'.shard := by
  unfold HamtDir.needsToSwitchToBasicDir at he
  split at he
  · cases he; exact hw
  · dsimp only at he
    have hf := find_wide (H := env.H) (net := env.net) (Shard.fuel env.H name) h.shard 0 name t hw
    unfold Shard.find at he
    rcases hr : Shard.getValue env.H env.net (Shard.fuel env.H name) h.shard 0 name t with ⟨r0, s0, t0⟩
    rw [hr] at he hf
    dsimp only at he hf
    have dec : ∀ op t, HamtDir.needsToSwitchToBasicDir.decide env thr k { h with shard := s0 } op t = (r, h', t', k') → Wide h'.shard := by
      intro op t he
      unfold HamtDir.needsToSwitchToBasicDir.decide at he
      split at he
      · cases he; exact hf
      · cases he; exact hf
    split at he
    · cases he; exact hf
    · exact dec _ _ he
    · exact dec _ _ he
    · cases he; exact hf

/-- C126: after a call of `AddChild` that returned no error, `Find` of that name gives the node that was added, or tells that a block cannot be fetched. The directory was loaded from any node
and has been looked at in any way, before and after. -/
theorem C126_added_is_found {env env' : Env} {root nd : Node} {c c1 c2 : Dir.Cfg} {ops ops' : List DOp} {name : Bytes} (hd : newDirectoryFromNode root = .ok c.dir) (hn : name ≠ [])
    (ho : ∀ op ∈ ops, Looks op) (ho' : ∀ op ∈ ops', Looks op) (hH : env'.H = env.H) (ha : Dir.addChild env (execAll env ops c) name nd = (.ok (), c1)) (h2 : c2.dir = c1.dir) :
    (Dir.find env' (execAll env' ops' c2) name).1 = .ok nd ∨ (Dir.find env' (execAll env' ops' c2) name).1 = .error .notFound := by
  have first : ∀ (e : Env) (a : Dir.Cfg), e.H = env.H → a.dir = c1.dir → (Dir.find e a name).1 = .ok nd ∨ (Dir.find e a name).1 = .error .notFound := by
    intro e a hH hdir
    have hw := (asked_same (env := env) ops c (.refl _) ho).wide (wide_dir hd)
    generalize execAll env ops c = c0 at ha hw
    have fh : ∀ h' : HamtDir, c1.dir = .hamt h' → (∀ u, (h'.find e name u).1 = .ok nd ∨ (h'.find e name u).1 = .error .notFound) →
        (Dir.find e a name).1 = .ok nd ∨ (Dir.find e a name).1 = .error .notFound := by
      intro h' h1 h2
      unfold Dir.find
      rw [hdir, h1]
      dsimp only
      exact h2 a.t
    have fb : ∀ b' : Basic, c1.dir = .basic b' → (∀ u, (b'.find e name u).1 = .ok nd ∨ (b'.find e name u).1 = .error .notFound) →
        (Dir.find e a name).1 = .ok nd ∨ (Dir.find e a name).1 = .error .notFound := by
      intro b' h1 h2
      unfold Dir.find
      rw [hdir, h1]
      dsimp only
      exact h2 a.t
    unfold Dir.addChild at ha
    cases hc : c0.dir with
    | hamt h =>
      rw [hc] at ha hw
      dsimp only at ha
      rcases hs : h.needsToSwitchToBasicDir env c0.thr name (some nd) c0.t c0.k with ⟨r, h1, t1, k1⟩
      have hw1 := needs_wide hw hs
      rw [hs] at ha
      match r, ha with
      | .error e, ha => cases ha
      | .ok true, ha =>
        dsimp only at ha
        rcases hb : h1.switchToBasic env t1 with ⟨_ | b, h2, t2⟩
        · rw [hb] at ha; cases ha
        rw [hb] at ha
        dsimp only at ha
        rcases hx : b.addChild name nd with ⟨_ | _, b'⟩
        · rw [hx] at ha; cases ha
        rw [hx] at ha
        injection ha with _ ha
        exact fb b' (by rw [← ha]) (fun u => basic_add hx)
      | .ok false, ha =>
        dsimp only at ha
        rcases hx : h1.addChild env name nd t1 c0.st with ⟨r, h2, t2, st2⟩
        rw [hx] at ha
        injection ha with hr ha
        subst hr
        exact fh h2 (by rw [← ha]) (fun u => hamt_add hn hw1 hH hx)
    | basic b =>
      rw [hc] at ha
      dsimp only at ha
      split at ha
      · rcases hx : b.addChild name nd with ⟨r, b'⟩
        rw [hx] at ha
        injection ha with hr ha
        subst hr
        exact fb b' (by rw [← ha]) (fun u => basic_add hx)
      · rcases hs : b.switchToSharding env c0.t with ⟨_ | h, t1⟩
        · rw [hs] at ha; cases ha
        rw [hs] at ha
        dsimp only at ha
        have hw1 : Wide h.shard := by
          unfold Basic.switchToSharding at hs
          cases hm : newShard env.width with
          | error e => rw [hm] at hs; cases hs
          | ok s =>
            rw [hm] at hs
            dsimp only at hs
            have w0 : Wide (s.setCidBuilder (some b.builder)) := by
              have := wide_make hm
              cases s
              exact .mk this.valid this.len (fun x hx => this.child hx)
            rcases hl : Basic.setLinks env b.links (s.setCidBuilder (some b.builder)) c0.t with ⟨_ | s', t'⟩
            · rw [hl] at hs; cases hs
            · rw [hl] at hs
              cases hs
              exact setLinks_wide _ _ _ _ _ hl w0
        rcases hx : h.addChild env name nd t1 c0.st with ⟨_ | _, h2, t2, st2⟩
        · rw [hx] at ha; cases ha
        rw [hx] at ha
        injection ha with _ ha
        exact fh h2 (by rw [← ha]) (fun u => hamt_add hn hw1 hH hx)
  rcases find_base (env := env') (name := name) (asked_same (env := env') ops' c2 (.refl _) ho') (env0 := { env' with net := allNet }) rfl rfl (c0 := c2) rfl with h | h
  · exact .inr h
  · rw [h]
    exact first _ _ hH h2

/-- The number of set bits below an index, after one was set. -/
theorem ones_set {size : Nat} {bf : Bytes} {l : List Nat} {i j : Nat} (h : IsBf size bf l) (hi : i < size) (hj : j < size) (hb : bfBit bf i = false) (hij : i ≠ j) :
    bfOnesBefore (bfSet bf i) j = bfOnesBefore bf j + (if i < j then 1 else 0) ∧ bfBit (bfSet bf i) j = bfBit bf j := by
  have h' : IsBf size (bfSet bf i) (i :: l) := isBf_set h hi (fun j => List.mem_cons)
  have hl : i ∉ l := by rw [h.bit i hi] at hb; simpa using hb
  refine ⟨?_, by
    rw [h'.bit j hj, h.bit j hj]
    have hne : j ≠ i := fun e => hij e.symm
    simp [hne]⟩
  rw [onesBefore_eq h' hj, onesBefore_eq h hj]
  clear hj hij
  induction j with
  | zero => simp
  | succ j ih =>
    rw [List.range_succ, List.filter_append, List.filter_append, List.length_append, List.length_append, ih]
    by_cases hji : j = i
    · subst hji; simp [hl]
    · have e : ([j].filter (· ∈ i :: l)).length = ([j].filter (· ∈ l)).length := by
        by_cases hm : j ∈ l <;> simp [hji, hm]
      rw [e]
      by_cases h2 : i < j
      · rw [if_pos h2, if_pos (by omega)]; omega
      · rw [if_neg h2, if_neg (by omega)]; omega

theorem ones_mono {size : Nat} {bf : Bytes} {l : List Nat} {i j : Nat} (h : IsBf size bf l) (hi : i < size) (hj : j < size) (hij : i < j) :
    bfOnesBefore bf i + (if bfBit bf i then 1 else 0) ≤ bfOnesBefore bf j := by
  rw [onesBefore_eq h hj, onesBefore_eq h hi, h.bit i hi]
  have : (List.range (i + 1)).filter (· ∈ l) <+: (List.range j).filter (· ∈ l) := by
    obtain ⟨r, hr⟩ : List.range (i + 1) <+: List.range j := by
      rw [List.prefix_iff_eq_take, List.take_range, List.length_range, Nat.min_eq_left (by omega)]
    rw [← hr, List.filter_append]
    exact List.prefix_append _ _
  have := this.length_le
  rw [List.range_succ, List.filter_append, List.length_append] at this
  refine Nat.le_trans (Nat.le_of_eq ?_) this
  congr 1
  by_cases hm : i ∈ l <;> simp [hm]

/-- One step of a lookup that finds something, with all blocks. -/
theorem getValue_step {s : Shard} {f n u : Nat} {key : Bytes} {x : Node} (h : tgt (Shard.getValue H allNet (f + 1) s n key u).1 = .ok (some x)) :
    ∃ idx n' c, nextBits (H key) n s.lg = .ok (idx, n') ∧ bfBit s.bf idx = true ∧ childAt s (s.sliceIndex idx) = some c ∧
      ((c.isValueNode = true ∧ c.key = key ∧ tgt (.ok c.val) = .ok (some x)) ∨ (c.isValueNode = false ∧ ∃ u', tgt (Shard.getValue H allNet f c n' key u').1 = .ok (some x))) := by
  unfold Shard.getValue at h
  cases hx : nextBits (H key) n s.lg with
  | error e => rw [hx] at h; cases h
  | ok y =>
    obtain ⟨idx, n'⟩ := y
    rw [hx] at h
    dsimp only at h
    split at h
    · cases h
    next hb =>
    rcases hg : s.get allNet (s.sliceIndex idx) u with ⟨_ | ⟨c, s1⟩, t1⟩
    · rw [hg] at h; cases h
    rw [hg] at h
    dsimp only at h
    obtain ⟨c', hc', _, _⟩ := (Loaded.refl s).get_ok hg
    have hcc : childAt s (s.sliceIndex idx) = some c := by
      unfold childAt
      rw [← get_time s _ u 0, hg]
    refine ⟨idx, n', c, rfl, by simpa using hb, hcc, ?_⟩
    split at h
    · next hv =>
      split at h
      · next hk => exact .inl ⟨hv, hk, h⟩
      · cases h
    · next hv =>
      refine .inr ⟨by simpa using hv, t1, ?_⟩
      rcases hr : Shard.getValue H allNet f c n' key t1 with ⟨r, c2, t2⟩
      rw [hr] at h
      exact h

/-- The same, backwards. -/
theorem getValue_back {s c : Shard} {f n n' idx u : Nat} {key : Bytes} (hx : nextBits (H key) n s.lg = .ok (idx, n')) (hb : bfBit s.bf idx = true)
    (hc : childAt s (s.sliceIndex idx) = some c) : ∃ u', (Shard.getValue H allNet (f + 1) s n key u).1 =
      if c.isValueNode then (if c.key = key then .ok c.val else .error .notExist) else (Shard.getValue H allNet f c n' key u').1 := by
  have hg : ∃ s1 t1, s.get allNet (s.sliceIndex idx) u = (.ok (c, s1), t1) := by
    unfold childAt at hc
    rw [← get_time s _ u 0] at hc
    rcases hg : s.get allNet (s.sliceIndex idx) u with ⟨_ | ⟨c', s1⟩, t1⟩
    · rw [hg] at hc; cases hc
    · rw [hg] at hc; cases hc; exact ⟨_, _, rfl⟩
  obtain ⟨s1, t1, hg⟩ := hg
  refine ⟨t1, ?_⟩
  conv_lhs => unfold Shard.getValue
  rw [hx]
  dsimp only
  rw [if_neg (by rw [hb]; simp), hg]
  dsimp only
  split
  · split <;> rfl
  · rcases Shard.getValue H allNet f c n' key t1 with ⟨r, c', t'⟩
    rfl

theorem childAt_slot {s s2 : Shard} {i j : Nat} (hz : s2.size = s.size) (hi : s2.slots[j]? = s.slots[i]?) : childAt s2 j = childAt s i := by
  have e : (s2.get allNet j 0).1.map Prod.fst = (s.get allNet i 0).1.map Prod.fst := by
    unfold Shard.get
    rw [hi, hz]
    split
    · rfl
    · rfl
    · split
      · rfl
      · split
        · split <;> rfl
        · rfl
      · split <;> rfl
  rw [childAt_eq, childAt_eq, e]

/-- Setting one name leaves the others where they are found. -/
theorem others_found : ∀ (f : Nat) (s s' : Shard) (n : Nat) (key k : Bytes) (v : Link) (t t1 u u' : Nat) (o : Option Link) (x : Node), key ≠ [] → k ≠ key → Wide s →
    Shard.swapValue H net f s n key (some v) t = (.ok o, s', t1) → tgt (Shard.getValue H allNet f s n k u).1 = .ok (some x) → tgt (Shard.getValue H allNet f s' n k u').1 = .ok (some x)
  | 0, s, s', n, key, k, v, t, t1, u, u', o, x, hk, hne, hw, h, hf => by cases h
  | f + 1, s, s', n, key, k, v, t, t1, u, u', o, x, hk, hne, hw, h, hf => by
    obtain ⟨j, nj, d, hxj, hbj, hd, hcase⟩ := getValue_step hf
    have hj := hw.lt hxj
    have hlg := lg_spec hw.valid
    unfold Shard.swapValue at h
    cases hx : nextBits (H key) n s.lg with
    | error e => rw [hx] at h; cases h
    | ok y =>
      obtain ⟨idx, n'⟩ := y
      rw [hx] at h
      dsimp only at h
      have hidx := hw.lt hx
      have hnn : n' = nj := by rw [(nextBits_inv hlg.1 hx).2, (nextBits_inv hlg.1 hxj).2]
      subst hnn
      -- what is left to show when the child of `k` is still `d`
      have same : s'.size = s.size → bfBit s'.bf j = true → childAt s' (s'.sliceIndex j) = some d → tgt (Shard.getValue H allNet (f + 1) s' n k u').1 = .ok (some x) := by
        intro hz hb hc
        obtain ⟨w, hw'⟩ := getValue_back (H := H) (f := f) (u := u') (by unfold Shard.lg at hxj ⊢; rw [hz]; exact hxj) hb hc
        rw [hw']
        rcases hcase with ⟨a, b, c⟩ | ⟨a, u0, b⟩
        · rw [if_pos a, if_pos b]; exact c
        · rw [if_neg (by simp [a])]
          have := (find_loaded (net := allNet) H f d d n' k w u0 (.refl _)).1
          have e2 := (find_loaded (net := allNet) H f d d n' k u0 w (.refl _)).1
          rcases e2 with e2 | e2
          · rw [e2] at b; cases b
          · rw [← e2]; exact b
      split at h
      · next hbit =>
        have hij : idx ≠ j := by rintro rfl; rw [hbj] at hbit; cases hbit
        cases hi : s.insert key (some v) idx with
        | error e => rw [hi] at h; cases h
        | ok s2 =>
          rw [hi] at h
          cases h
          obtain ⟨sd, hsd, _, hle, hs⟩ := insert_inv hi
          obtain ⟨hp, hb⟩ := ones_set hw.bits hidx hj hbit hij
          have hz : s'.size = s.size := by rw [hs, size_withSlots]
          refine same hz (by rw [hs, bf_withSlots, hb]; exact hbj) ?_
          rw [← hd]
          refine childAt_slot hz ?_
          have e : s'.sliceIndex j = s.sliceIndex j + (if idx < j then 1 else 0) := by
            show bfOnesBefore s'.bf j = _
            rw [hs, bf_withSlots]
            exact hp
          rw [e, hs, slots_withSlots]
          by_cases hlt : idx < j
          · have hm := ones_mono hw.bits hidx hj hlt
            have hm' : s.sliceIndex idx ≤ s.sliceIndex j := by
              show bfOnesBefore s.bf idx ≤ bfOnesBefore s.bf j
              omega
            rw [if_pos hlt, List.getElem?_append_right (by rw [List.length_take]; omega), List.length_take, Nat.min_eq_left hle,
              show s.sliceIndex j + 1 - s.sliceIndex idx = (s.sliceIndex j - s.sliceIndex idx) + 1 by omega, List.getElem?_cons_succ, List.getElem?_drop]
            congr 1
            omega
          · have hm := ones_mono hw.bits hj hidx (by omega)
            rw [hbj] at hm
            have hm' : s.sliceIndex j + 1 ≤ s.sliceIndex idx := by
              show bfOnesBefore s.bf j + 1 ≤ bfOnesBefore s.bf idx
              simpa using hm
            rw [if_neg hlt, Nat.add_zero, List.getElem?_append_left (by rw [List.length_take]; omega), List.getElem?_take_of_lt (by omega)]
      · next hbit =>
        have hbit : bfBit s.bf idx = true := by simpa using hbit
        rcases hg : s.get net (s.sliceIndex idx) t with ⟨_ | ⟨c, s1⟩, ta⟩
        · rw [hg] at h; cases h
        rw [hg] at h
        dsimp only at h
        obtain ⟨k1, k2, k3, k4, k5, k6⟩ := keep_get hg
        obtain ⟨wc, ws⟩ := hw.get hg
        obtain ⟨c0, hc0, hl0, _⟩ := (Loaded.refl s).get_ok hg
        have hcc : childAt s (s.sliceIndex idx) = some c := by
          have e1 : (s.get net (s.sliceIndex idx) t).1 = .ok (c, s1) := by rw [hg]
          have e2 := (get_net (net := net) (t := t) s (s.sliceIndex idx)).resolve_left (by rw [e1]; exact fun h => by cases h)
          unfold childAt
          rw [← e2, e1]
        -- the case of another position
        have other : idx ≠ j → ∀ c', s' = s1.setChild c' (s.sliceIndex idx) → tgt (Shard.getValue H allNet (f + 1) s' n k u').1 = .ok (some x) := by
          intro hij c' hs
          have hz : s'.size = s.size := by rw [hs, (setChild_slots s1 c' _).2, k3]
          have hbf : s'.bf = s.bf := by rw [hs, setChild_set, bf_withSlots, k4]
          refine same hz (by rw [hbf]; exact hbj) ?_
          rw [← hd]
          have hsl : s'.sliceIndex j = s.sliceIndex j := by
            show bfOnesBefore s'.bf j = bfOnesBefore s.bf j
            rw [hbf]
          refine childAt_slot hz ?_
          have hpos : s.sliceIndex j ≠ s.sliceIndex idx := by
            show bfOnesBefore s.bf j ≠ bfOnesBefore s.bf idx
            rcases Nat.lt_or_gt_of_ne hij with hlt | hlt
            · have := ones_mono hw.bits hidx hj hlt
              rw [hbit] at this
              simp at this
              omega
            · have := ones_mono hw.bits hj hidx hlt
              rw [hbj] at this
              simp at this
              omega
          rw [hsl, hs, (setChild_slots s1 c' _).1, List.getElem?_set_ne (fun e => hpos e.symm), (get_keeps hg hpos).1]
        have here : idx = j → ∀ c', s' = s1.setChild c' (s.sliceIndex idx) → ∃ w, (Shard.getValue H allNet (f + 1) s' n k u').1 =
            if c'.isValueNode then (if c'.key = k then .ok c'.val else .error .notExist) else (Shard.getValue H allNet f c' n' k w).1 := by
          rintro rfl c' rfl
          have hz : (s1.setChild c' (s.sliceIndex idx)).size = s.size := by rw [(setChild_slots s1 c' _).2, k3]
          have hbf : (s1.setChild c' (s.sliceIndex idx)).bf = s.bf := by rw [setChild_set, bf_withSlots, k4]
          have hsl : (s1.setChild c' (s.sliceIndex idx)).sliceIndex idx = s.sliceIndex idx := by
            show bfOnesBefore (s1.setChild c' (s.sliceIndex idx)).bf idx = bfOnesBefore s.bf idx
            rw [hbf]
          refine getValue_back (by unfold Shard.lg at hxj ⊢; rw [hz]; exact hxj) (by rw [hbf]; exact hbj) ?_
          have hs : (s1.setChild c' (s.sliceIndex idx)).slots[s.sliceIndex idx]? = some (.child c') := by
            rw [(setChild_slots s1 c' _).1, List.getElem?_set_self (by rw [k5]; exact k6)]
          rw [hsl]
          unfold childAt Shard.get
          rw [hs]
        split at h
        · next hv =>
          by_cases hij : idx = j
          · have hdc : d = c := by rw [hij] at hcc; rw [hd] at hcc; cases hcc; rfl
            subst hdc
            rcases hcase with ⟨a, b, e⟩ | ⟨a, _⟩
            · split at h
              · next hkk => exact absurd (b.symm.trans hkk) hne
              · next hkk =>
                cases hn : newShard s1.size with
                | error e => rw [hn] at h; cases h
                | ok c0 =>
                  rw [hn] at h
                  dsimp only at h
                  have hval := hw.valid
                  rw [← k3] at hval
                  have hc0 : c0 = .mk s1.size (bfNew s1.size) [] none [] none := by
                    have := makeShard_valid hval [] none
                    rw [show newShard s1.size = makeShard s1.size [] none from rfl, this] at hn
                    cases hn; rfl
                  subst hc0
                  rcases h1 : Shard.swapValue H net f ((Shard.mk s1.size (bfNew s1.size) [] none [] none).setCidBuilder s1.builder) n' key (some v) ta with ⟨_ | o1, c1, t2⟩
                  · rw [h1] at h; cases h
                  rw [h1] at h
                  dsimp only at h
                  cases hcv : d.val with
                  | none => rw [hcv] at e; cases e
                  | some y =>
                    rw [hcv] at h e
                    rcases h2 : Shard.swapValue H net f c1 n' d.key (some y) t2 with ⟨_ | o2, c2, t3⟩
                    · rw [h2] at h; cases h
                    rw [h2] at h
                    have hs' : s' = s1.setChild c2 (s.sliceIndex idx) := by cases h; rfl
                    have h1' : Shard.swapValue H net f (.mk s1.size (bfNew s1.size) [] s1.builder [] none) n' key (some v) ta = (.ok o1, c1, t2) := h1
                    have w0 : Wide (.mk s1.size (bfNew s1.size) [] s1.builder [] none) := .mk hval (isBf_new (valid_dvd hval)).len (fun c hc => by cases hc)
                    have ka := swap_keep f _ _ _ _ _ _ _ _ h1' w0
                    have kb := swap_keep f _ _ _ _ _ _ _ _ h2 ka.2.2.2
                    have hck : d.key ≠ [] := by
                      intro he
                      unfold Shard.isValueNode at hv
                      rw [he] at hv
                      simp at hv
                    obtain ⟨w, hw'⟩ := here hij c2 hs'
                    rw [hw', if_neg (by unfold Shard.isValueNode; rw [kb.1, ka.1]; simp [Shard.key])]
                    have := (pair_found (net' := allNet) f _ _ _ _ _ _ _ _ _ _ _ _ _ _ _ w w hval hk hck (fun he => hkk he.symm) h1' h2).2
                    rw [b] at this
                    rw [this]
                    exact e
            · rw [hv] at a; cases a
          · split at h
            · cases h; exact other hij _ rfl
            · cases hn : newShard s1.size with
              | error e => rw [hn] at h; cases h
              | ok c0 =>
                rw [hn] at h
                dsimp only at h
                rcases h1 : Shard.swapValue H net f (c0.setCidBuilder s1.builder) n' key (some v) ta with ⟨_ | o1, c1, t2⟩
                · rw [h1] at h; cases h
                rw [h1] at h
                dsimp only at h
                rcases h2 : Shard.swapValue H net f c1 n' c.key c.val t2 with ⟨_ | o2, c2, t3⟩
                · rw [h2] at h; cases h
                rw [h2] at h
                cases h
                exact other hij _ rfl
        · next hv =>
          rcases h1 : Shard.swapValue H net f c n' key (some v) ta with ⟨_ | o1, c1, t2⟩
          · rw [h1] at h; cases h
          rw [h1] at h
          have hs' : s' = s1.setChild c1 (s.sliceIndex idx) := by cases h; rfl
          by_cases hij : idx = j
          · have hdc : d = c := by rw [hij] at hcc; rw [hd] at hcc; cases hcc; rfl
            subst hdc
            rcases hcase with ⟨a, _, _⟩ | ⟨a, u0, b⟩
            · exact absurd a hv
            · obtain ⟨w, hw'⟩ := here hij c1 hs'
              have ka := swap_keep f _ _ _ _ _ _ _ _ h1 wc
              rw [hw', if_neg (by unfold Shard.isValueNode at hv ⊢; rw [ka.1, ka.2.1]; exact hv)]
              exact others_found f _ _ _ _ _ _ _ _ _ _ _ _ hk hne wc h1 b
          · exact other hij _ hs'

theorem looks_thr {env : Env} {op : DOp} {c : Dir.Cfg} (h : Looks op) : (Dir.exec env op c).2.thr = c.thr :=
  exec_thr (fun n e => by subst e; cases h) c

theorem asked_thr {env : Env} : ∀ (ops : List DOp) (c : Dir.Cfg), (∀ op ∈ ops, Looks op) → (execAll env ops c).thr = c.thr
  | [], _, _ => rfl
  | op :: ops, c, ho => (asked_thr ops _ (fun x hx => ho x (List.mem_cons_of_mem _ hx))).trans (looks_thr (ho op (List.mem_cons_self ..)))

/-- `AddChild` of a sharded directory leaves what is found under another name. -/
theorem hamt_others {env : Env} {h h' : HamtDir} {name k : Bytes} {nd x : Node} {t t1 u u' : Nat} {st st' : List Node} (hn : name ≠ []) (hk : k ≠ name) (hw : Wide h.shard)
    (hl : (env.H k).length = (env.H name).length) (ha : h.addChild env name nd t st = (.ok (), h', t1, st')) (hf : (h.find env k u).1 = .ok x) :
    tgt (Shard.getValue env.H allNet (Shard.fuel env.H k) h'.shard 0 k u').1 = .ok (some x) := by
  have hb : tgt (Shard.getValue env.H allNet (Shard.fuel env.H k) h.shard 0 k 0).1 = .ok (some x) := by
    unfold HamtDir.find Shard.find at hf
    have hx := (find_loaded (net := env.net) env.H (Shard.fuel env.H k) h.shard h.shard 0 k u 0 (Loaded.refl _)).1
    rcases hr : Shard.getValue env.H env.net (Shard.fuel env.H k) h.shard 0 k u with ⟨r, s1, t2⟩
    rw [hr] at hf hx
    match r, hf, hx with
    | .ok (some l), hf, hx =>
      dsimp only at hf
      split at hf
      · injection hf with hf
        rw [← hx.resolve_left (fun e => by cases e), ← hf]
        rfl
      · cases hf
  unfold HamtDir.addChild Shard.swap at ha
  split at ha
  · next hs => split at hs <;> cases ha
  · next o s2 t2 st2 hs =>
    have hsh : h'.shard = s2 := by injection ha with _ ha; injection ha with ha _; rw [← ha]
    split at hs
    · cases hs
    · rcases h1 : Shard.swapValue env.H env.net (Shard.fuel env.H name) h.shard 0 name (some (makeLink (linkNamePrefix h.shard.size 0 ++ name) nd)) t with ⟨r, s3, t3⟩
      rw [h1] at hs
      dsimp only at hs
      have hr : r = .ok o := by injection hs
      have hs3 : s3 = s2 := by injection hs with _ hs; injection hs
      subst hr; subst hs3
      have hfu : Shard.fuel env.H name = Shard.fuel env.H k := by unfold Shard.fuel; rw [hl]
      rw [hfu] at h1
      rw [hsh]
      exact others_found _ _ _ _ _ _ _ _ _ _ _ _ _ hn hk hw h1 hb

/-- `AddChild` of a directory that is not sharded leaves the links of another name. -/
theorem basic_others {b b' : Basic} {name k : Bytes} {nd : Node} (hk : k ≠ name) (ha : b.addChild name nd = (.ok (), b')) : b'.getNodeLink k = b.getNodeLink k := by
  unfold Basic.addChild Basic.addLinkChild Basic.removeChild at ha
  cases hl : b.getNodeLink name with
  | none =>
    rw [hl] at ha
    dsimp only at ha
    rw [if_neg (by simp)] at ha
    injection ha with _ ha
    rw [← ha]
    simp [Basic.getNodeLink, Basic.addToEstimatedSize, List.find?_append, Link.name, hk.symm]
  | some m =>
    rw [hl] at ha
    dsimp only at ha
    injection ha with _ ha
    rw [← ha]
    simp only [Basic.getNodeLink, Basic.addToEstimatedSize, rm_links, List.find?_append, List.find?_filter]
    have e : (fun a : Link => decide (decide (a.name ≠ name) = true ∧ decide (a.name = k) = true)) = fun a => decide (a.name = k) := by
      funext a
      by_cases h : a.name = k
      · simp [h, hk]
      · simp [h]
    rw [e]
    simp [Link.name, hk.symm]

/-- C126: a call of `AddChild` that returned no error leaves what is found under every other name, while the directory stays in the form it has (`HAMTShardingSize` 0, the default). -/
theorem C126_others_stay {env env' : Env} {root nd x : Node} {c c1 c2 : Dir.Cfg} {ops ops' : List DOp} {name k : Bytes} (hd : newDirectoryFromNode root = .ok c.dir) (ht : c.thr = 0) (hn : name ≠ [])
    (hk : k ≠ name) (ho : ∀ op ∈ ops, Looks op) (ho' : ∀ op ∈ ops', Looks op) (hH : env'.H = env.H) (hl : (env.H k).length = (env.H name).length)
    (hf : (Dir.find env (execAll env ops c) k).1 = .ok x) (ha : Dir.addChild env (execAll env ops c) name nd = (.ok (), c1)) (h2 : c2.dir = c1.dir) :
    (Dir.find env' (execAll env' ops' c2) k).1 = .ok x ∨ (Dir.find env' (execAll env' ops' c2) k).1 = .error .notFound := by
  rcases find_base (env := env') (name := k) (asked_same (env := env') ops' c2 (.refl _) ho') (env0 := { env' with net := allNet }) rfl rfl (c0 := c2) rfl with h | h
  · exact .inr h
  · rw [h]
    left
    have hw := (asked_same (env := env) ops c (.refl _) ho).wide (wide_dir hd)
    have hz := (asked_thr (env := env) ops c ho).trans ht
    generalize execAll env ops c = c0 at ha hw hz hf
    unfold Dir.addChild at ha
    unfold Dir.find at hf ⊢
    rw [h2]
    cases hc : c0.dir with
    | hamt y =>
      rw [hc] at ha hw hf
      dsimp only at ha hf
      rw [hz, show y.needsToSwitchToBasicDir env 0 name (some nd) c0.t c0.k = (.ok false, y, c0.t, c0.k) from rfl] at ha
      dsimp only at ha
      rcases hx : y.addChild env name nd c0.t c0.st with ⟨r, y2, t2, st2⟩
      rw [hx] at ha
      injection ha with hr ha
      subst hr
      rw [← ha]
      have key := hamt_others (u' := c2.t) hn hk hw hl hx hf
      unfold HamtDir.find Shard.find
      dsimp only
      rw [hH]
      rcases hg : Shard.getValue env.H allNet (Shard.fuel env.H k) y2.shard 0 k c2.t with ⟨r, s4, t4⟩
      rw [hg] at key
      match r, key with
      | .ok (some l), key =>
        have hl : l.target = x := by
          simp only [tgt, Except.map, Option.map_some] at key
          injection key with key
          injection key
        dsimp only
        rw [hl]
        rfl
    | basic b =>
      rw [hc] at ha hf
      dsimp only at ha hf
      rw [if_pos (by rw [hz]; rfl)] at ha
      rcases hx : b.addChild name nd with ⟨r, b'⟩
      rw [hx] at ha
      injection ha with hr ha
      subst hr
      rw [← ha]
      have key := basic_others hk hx
      unfold Basic.find at hf ⊢
      dsimp only
      rw [key]
      cases hg : b.getNodeLink k with
      | none => rw [hg] at hf; cases hf
      | some l =>
        rw [hg] at hf
        dsimp only at hf ⊢
        split at hf
        · injection hf with hf; rw [hf]; rfl
        · cases hf

section Examples

theorem exAdd_runs : (match newDirectoryFromNode exMisplaced with
    | .ok d => (match Dir.addChild (calmEnv H0) (execAll (calmEnv H0) [.find [0x61]] (start d 0)) [0x62] (exNd 7) with
      | (.ok (), c1) => decide (((Dir.find (calmEnv H0) (execAll (calmEnv H0) [.find [0x61]] (start d 0)) [0x61]).1.toOption, (H0 [0x61]).length,
          (Dir.find (calmEnv H0) c1 [0x62]).1.toOption) = (some (exNd 1), (H0 [0x62]).length, some (exNd 7)))
      | _ => false)
    | _ => false) = true := by decide +kernel

/-- The hypotheses are met by the malformed directory in which a name cannot be found: it is found once it was added again, and the other name still is. -/
example : ∃ d c1, newDirectoryFromNode exMisplaced = .ok d ∧ Dir.addChild (calmEnv H0) (execAll (calmEnv H0) [.find [0x61]] (start d 0)) [0x62] (exNd 7) = (.ok (), c1) ∧
    (Dir.find (calmEnv H0) c1 [0x62]).1 = .ok (exNd 7) ∧
    ((Dir.find lateEnv (execAll lateEnv [.find [0x62]] c1) [0x62]).1 = .ok (exNd 7) ∨ (Dir.find lateEnv (execAll lateEnv [.find [0x62]] c1) [0x62]).1 = .error .notFound) ∧
    ((Dir.find lateEnv (execAll lateEnv [.find [0x62]] c1) [0x61]).1 = .ok (exNd 1) ∨ (Dir.find lateEnv (execAll lateEnv [.find [0x62]] c1) [0x61]).1 = .error .notFound) := by
  have h := exAdd_runs
  have okOf : ∀ {r : Except Err Node} {y : Node}, r.toOption = some y → r = .ok y := by
    intro r y h
    cases r with
    | error e => cases h
    | ok z => cases h; rfl
  have l1 : ∀ op ∈ ([.find [0x61]] : List DOp), Looks op := by
    intro op hop; simp only [List.mem_cons, List.not_mem_nil, or_false] at hop; subst hop; trivial
  have l2 : ∀ op ∈ ([.find [0x62]] : List DOp), Looks op := by
    intro op hop; simp only [List.mem_cons, List.not_mem_nil, or_false] at hop; subst hop; trivial
  split at h
  · next d hd =>
    split at h
    · next c1 ha =>
      have h := of_decide_eq_true h
      simp only [Prod.mk.injEq] at h
      obtain ⟨h1, h2, h3⟩ := h
      exact ⟨d, c1, hd, ha, okOf h3, C126_added_is_found (env := calmEnv H0) (c := start d 0) (name := [0x62]) hd (by simp) l1 l2 rfl ha rfl,
        C126_others_stay (env := calmEnv H0) (c := start d 0) (name := [0x62]) hd rfl (by simp) (by decide) l1 l2 rfl h2 (okOf h1) ha rfl⟩
    · cases h
  · cases h

end Examples

end Unixfs.Props
