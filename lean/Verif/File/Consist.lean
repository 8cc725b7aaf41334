import Verif.File.Robust

/-!
# Calls on HAMTs with consistent bitfields

Helper lemmas for the second part of C69.

The definitions in this file belong to proofs; they model no code.
-/

namespace Unixfs.File
open Hamt

/-- The indices whose bit is set. -/
def ones (n : Nat) (bf : Bytes) : List Nat := (List.range n).filter (fun i => bfBit bf i)

theorem isBf_ones {n : Nat} {bf : Bytes} (h : bf.length * 8 = n) : IsBf n bf (ones n bf) :=
  ⟨h, fun i hi => by rw [ones]; simp [hi]⟩

theorem ones_lt {n : Nat} {bf : Bytes} : ∀ i ∈ ones n bf, i < n := by
  intro i hi; rw [ones] at hi; simpa using (List.mem_filter.mp hi).1

theorem ones_new (n : Nat) : ones n (bfNew n) = [] := by
  rw [ones]; exact List.filter_eq_nil_iff.mpr (fun i _ => by rw [bfBit_new]; simp)

theorem ones_nodup (n : Nat) (bf : Bytes) : (ones n bf).Nodup := List.nodup_range.filter _

theorem ones_of {n : Nat} {bf : Bytes} {l : List Nat} (h : IsBf n bf l) : ones n bf = (List.range n).filter (· ∈ l) := by
  rw [ones]; exact List.filter_congr (fun i hi => h.bit i (by simpa using hi))

theorem ones_set {n : Nat} {bf : Bytes} (h : bf.length * 8 = n) {i : Nat} (hi : i < n) : (ones n (bfSet bf i)).length ≤ (ones n bf).length + 1 := by
  have hb := isBf_set (l' := i :: ones n bf) (isBf_ones h) hi (fun j => by simp)
  rw [ones_of hb]
  have hs : ((List.range n).filter (· ∈ i :: ones n bf)).Subset (i :: ones n bf) := by
    intro j hj; simpa using (List.mem_filter.mp hj).2
  have := (List.subperm_of_subset (List.nodup_range.filter _) hs).length_le
  simpa using this

theorem ones_unset {n : Nat} {bf : Bytes} (h : bf.length * 8 = n) {i : Nat} (hi : i < n) (hb : bfBit bf i = true) :
    (ones n (bfUnset bf i)).length + 1 ≤ (ones n bf).length := by
  have hx := isBf_unset (l' := (ones n bf).filter (· ≠ i)) (isBf_ones h) hi (fun j => by simp [and_comm])
  rw [ones_of hx]
  have hs : (i :: (List.range n).filter (· ∈ (ones n bf).filter (· ≠ i))).Subset (ones n bf) := by
    intro j hj
    rcases List.mem_cons.mp hj with rfl | hj
    · rw [ones]; simp [hi, hb]
    · have := (List.mem_filter.mp hj).2
      simp at this; exact this.1
  have := (List.subperm_of_subset (List.nodup_cons.mpr ⟨by simp, List.nodup_range.filter _⟩) hs).length_le
  simpa using this

theorem slice_le {n : Nat} {bf : Bytes} (h : bf.length * 8 = n) {i : Nat} (hi : i < n) : bfOnesBefore bf i ≤ (ones n bf).length := by
  rw [onesBefore_eq (isBf_ones h) hi]
  have hs : ((List.range i).filter (· ∈ ones n bf)).Subset (ones n bf) := by
    intro j hj; simpa using (List.mem_filter.mp hj).2
  exact (List.subperm_of_subset (List.nodup_range.filter _) hs).length_le

/-- A shard in memory whose bitfield is consistent with its children, and below it likewise. -/
inductive Sd (n : Nat) : Shard → Prop
  | mk {s : Shard} (size : s.size = n) (len : s.bf.length * 8 = n) (cnt : (ones n s.bf).length ≤ s.slots.length) (key : s.key = [])
      (links : ∀ l, Slot.link l ∈ s.slots → maxpadlen n ≤ l.name.length)
      (subs : ∀ l, Slot.link l ∈ s.slots → l.name.length = maxpadlen n → ∀ c, newHamtFromDag l.target = .ok c → Sd n c)
      (kids : ∀ c, Slot.child c ∈ s.slots → c.isValueNode = false → Sd n c) : Sd n s

/-- What a slot may hold. -/
def SdSlot (n : Nat) : Slot → Prop
  | .link l => maxpadlen n ≤ l.name.length ∧ (l.name.length = maxpadlen n → ∀ c, newHamtFromDag l.target = .ok c → Sd n c)
  | .child c => c.isValueNode = false → Sd n c

variable {n : Nat}

theorem Sd.size {s : Shard} (h : Sd n s) : s.size = n := by cases h; assumption
theorem Sd.len {s : Shard} (h : Sd n s) : s.bf.length * 8 = n := by cases h; assumption
theorem Sd.cnt {s : Shard} (h : Sd n s) : (ones n s.bf).length ≤ s.slots.length := by cases h; assumption
theorem Sd.key {s : Shard} (h : Sd n s) : s.key = [] := by cases h; assumption
theorem Sd.slot {s : Shard} (h : Sd n s) : ∀ x ∈ s.slots, SdSlot n x := by
  intro x hx
  cases h with
  | mk h1 h2 h3 h4 h5 h6 h7 =>
    cases x with
    | link l => exact ⟨h5 l hx, h6 l hx⟩
    | child c => exact h7 c hx

theorem Sd.of {s : Shard} (h1 : s.size = n) (h2 : s.bf.length * 8 = n) (h3 : (ones n s.bf).length ≤ s.slots.length) (h4 : s.key = [])
    (h5 : ∀ x ∈ s.slots, SdSlot n x) : Sd n s :=
  .mk h1 h2 h3 h4 (fun l hl => (h5 _ hl).1) (fun l hl => (h5 _ hl).2) (fun c hc => h5 _ hc)

theorem Sd.set {s : Shard} (h : Sd n s) (i : Nat) {x : Slot} (hx : SdSlot n x) : Sd n (s.withSlots s.bf (s.slots.set i x)) := by
  refine .of (by simpa using h.size) (by simpa using h.len) (by simpa using h.cnt) (by simpa using h.key) (fun y hy => ?_)
  rw [slots_withSlots] at hy
  rcases List.mem_or_eq_of_mem_set hy with hy | rfl
  · exact h.slot y hy
  · exact hx

theorem Sd.builder {s : Shard} (h : Sd n s) (b : Option Builder) : Sd n (s.setCidBuilder b) := by
  cases s; exact .of h.size h.len h.cnt h.key h.slot

theorem Sd.insert {s s' : Shard} (h : Sd n s) {key : Bytes} {v : Option Link} {i : Nat} (hi : i < n) (hk : v ≠ none → key ≠ []) :
    match s.insert key v i with | .error e => e.Sane | .ok s' => Sd n s' := by
  cases v with
  | none => rw [insert_none]; exact ⟨by simp, by simp⟩
  | some l =>
    rw [Shard.insert]
    dsimp only
    have h256 : makeShard 256 key (some (Link.rename l (linkNamePrefix s.size i ++ key))) = .ok (.mk 256 (bfNew 256) [] none key (some (Link.rename l (linkNamePrefix s.size i ++ key)))) :=
      makeShard_valid (size := 256) ⟨8, by omega, by omega, rfl⟩ _ _
    rw [h256]
    dsimp only
    have hle := le_trans (slice_le h.len hi) h.cnt
    rw [if_neg (by rw [Shard.sliceIndex]; omega)]
    have hb := isBf_set (l' := i :: ones n s.bf) (isBf_ones h.len) hi (fun j => by simp)
    refine .of (by simpa using h.size) (by simpa using hb.len) ?_ (by simpa using h.key) (fun x hx => ?_)
    · have := ones_set h.len hi
      have := h.cnt
      simp only [bf_withSlots, slots_withSlots, List.length_append, List.length_cons, List.length_take, List.length_drop]
      rw [Shard.sliceIndex]
      omega
    · rw [slots_withSlots] at hx
      rcases List.mem_append.mp hx with hx | hx
      · exact h.slot x (List.mem_of_mem_take hx)
      · rcases List.mem_cons.mp hx with rfl | hx
        · intro hv; simp [Shard.isValueNode, Shard.key, Shard.val, hk] at hv
        · exact h.slot x (List.mem_of_mem_drop hx)

theorem Sd.rm {s : Shard} (h : Sd n s) {i : Nat} (hi : i < n) (hb : bfBit s.bf i = true) :
    match s.rm i with | .error e => e.Sane | .ok s' => Sd n s' := by
  by_cases hl : s.sliceIndex i ≥ s.slots.length
  · rw [Shard.rm, if_pos hl]; exact ⟨by simp, by simp⟩
  · rw [Shard.rm, if_neg hl]
    have hx := isBf_unset (l' := (ones n s.bf).filter (· ≠ i)) (isBf_ones h.len) hi (fun j => by simp [and_comm])
    refine .of (by simpa using h.size) (by simpa using hx.len) ?_ (by simpa using h.key) (fun x hx => ?_)
    · have := ones_unset h.len hi hb
      have := h.cnt
      simp only [bf_withSlots, slots_withSlots]
      rw [List.length_eraseIdx]
      split <;> omega
    · rw [slots_withSlots] at hx; exact h.slot x (List.mem_of_mem_eraseIdx hx)

/-- `get`. -/
theorem Sd.get {net : Net} {s : Shard} (h : Sd n s) (i t : Nat) :
    match (s.get net i t).1 with
    | .error e => e.Sane
    | .ok (c, s1) => SdSlot n (.child c) ∧ Sd n s1 ∧ s1.bf = s.bf ∧ (∃ x, s.slots[i]? = some x ∧ (c.isValueNode = false → c.depth ≤ slotDepth x)) ∧ (∀ j, j ≠ i → s1.slots[j]? = s.slots[j]?) := by
  have hset : ∀ c j, j ≠ i → (s.setChild c i).slots[j]? = s.slots[j]? := by
    intro c j hj; cases s; exact List.getElem?_set_ne (Ne.symm hj)
  have hbf : ∀ c, (s.setChild c i).bf = s.bf := by intro c; cases s; rfl
  cases hx : s.slots[i]? with
  | none => rw [Shard.get, hx]; exact ⟨by simp, by simp⟩
  | some x =>
    have hsx := h.slot x (List.mem_of_getElem? hx)
    cases x with
    | child c =>
      rw [Shard.get, hx]
      exact ⟨hsx, h, rfl, ⟨_, rfl, fun _ => le_refl _⟩, fun _ _ => rfl⟩
    | link l =>
      have hg := get_fresh (net := net) (s := s) (i := i) (fun x hx' => ⟨l, by rw [hx] at hx'; cases hx'; rfl⟩) t
      generalize (s.get net i t).1 = G at hg ⊢
      cases hg with
      | fail h => exact h
      | sub h1 ht hc =>
        have hf := load_fresh hc
        rw [hx] at h1; cases h1
        have hn : l.name.length = maxpadlen n := by
          rw [childLinkType, h.size] at ht
          split at ht
          · cases ht
          split at ht
          · assumption
          · cases ht
        have hsd := hsx.2 hn _ hc
        exact ⟨fun _ => hsd, h.set i (x := .child _) (fun _ => hsd), hbf _, ⟨_, rfl, fun _ => by rw [hf.2]; exact le_refl _⟩, hset _⟩
      | value h1 ht hc =>
        have hv := (value_child ht hc).1
        exact ⟨fun hv' => (by rw [hv] at hv'; cases hv'), h.set i (x := .child _) (fun hv' => by rw [hv] at hv'; cases hv'), hbf _, ⟨_, rfl, fun hv' => by rw [hv] at hv'; cases hv'⟩, hset _⟩

/-- Result and new shard of a call. -/
def FineC {α : Type} (n : Nat) (r : Except Err α × Shard × Nat) : Prop := (∀ e, r.1 = .error e → e.Sane) ∧ Sd n r.2.1

theorem FineC.fail {α : Type} {e : Err} {s : Shard} {t : Nat} (he : e.Sane) (hs : Sd n s) : FineC (α := α) n (.error e, s, t) := ⟨fun e' h => by cases h; exact he, hs⟩

theorem FineC.good {α : Type} {x : α} {s : Shard} {t : Nat} (hs : Sd n s) : FineC n (.ok x, s, t) := ⟨(fun e' h => nomatch h), hs⟩

theorem Sd.lg {s : Shard} (h : Sd n s) (hv : ValidSize n) : 3 ≤ s.lg ∧ s.lg ≤ 10 ∧ 2 ^ s.lg = n := by
  obtain ⟨k, h1, h2, h3⟩ := hv
  rw [Shard.lg, h.size, h3, trailingZeros_pow 64 k (by omega)]
  exact ⟨h1, h2, rfl⟩

theorem getValue_sd (hv : ValidSize n) (H : Hash) (net : Net) (f : Nat) : ∀ (s : Shard) (consumed : Nat) (key : Bytes) (t : Nat), Sd n s → consumed ≤ (H key).length * 8 →
    (H key).length * 8 + 1 ≤ f + consumed → FineC n (Shard.getValue H net f s consumed key t) := by
  induction f with
  | zero => intro s consumed key t hs hc hf; omega
  | succ f ih =>
    intro s consumed key t hs hle hf
    have hlg := hs.lg hv
    rw [Shard.getValue]
    by_cases hd : (H key).length * 8 < consumed + s.lg
    · rw [nextBits_deep _ _ _ hd]; exact .fail ⟨by simp, by simp⟩ hs
    rw [nextBits_ok _ _ _ (by omega) (by omega)]
    dsimp only
    split
    · exact .fail ⟨by simp, by simp⟩ hs
    generalize beNat (H key) / 2 ^ ((H key).length * 8 - consumed - s.lg) % 2 ^ s.lg = idx
    have hg := hs.get (net := net) (s.sliceIndex idx) t
    generalize s.get net (s.sliceIndex idx) t = G at hg ⊢
    obtain ⟨r, t1⟩ := G
    cases r with
    | error e => exact .fail hg hs
    | ok q =>
      obtain ⟨c, s1⟩ := q
      obtain ⟨g1, g2, g3⟩ := hg
      dsimp only
      split
      · split
        · exact .good g2
        · exact .fail ⟨by simp, by simp⟩ g2
      · rename_i hv
        have hc := g1 (by simpa using hv)
        have := ih c (consumed + s.lg) key t1 hc (by omega) (by omega)
        generalize Shard.getValue H net f c (consumed + s.lg) key t1 = R at this ⊢
        obtain ⟨r, c', t2⟩ := R
        exact ⟨this.1, g2.set _ (x := .child _) (fun _ => this.2)⟩

theorem collapse_sd {s child : Shard} (h : Sd n s) (hc : Sd n child) {idx : Nat} (hi : idx < n) (hb : bfBit s.bf idx = true) (i : Nat) (old : Option Link) (t : Nat) :
    FineC n ((s.collapse idx i child old).1, (s.collapse idx i child old).2, t) := by
  rw [Shard.collapse]
  split
  · have := h.rm hi hb
    split
    · rename_i e he; rw [he] at this; exact .fail this h
    · rename_i s' he; rw [he] at this; exact .good this
  · refine .good ?_
    split
    · rename_i hv; exact h.set _ (x := .child _) (fun h' => by rw [hv] at h'; cases h')
    · exact h
  · rename_i l hl
    have hsl := hc.slot (.link l) (by rw [hl]; simp)
    split
    · rename_i e he
      refine .fail ?_ h
      rw [childLinkType] at he
      split at he
      · cases he; exact ⟨by simp, by simp⟩
      · split at he <;> cases he
    · exact .good (h.set _ hsl)
    · exact .good h
  · exact .good h

theorem swapValue_sd (hv : ValidSize n) {H : Hash} (hH : ∀ k, (H k).length = 8) (net : Net) (f : Nat) : ∀ (s : Shard) (consumed : Nat) (key : Bytes) (value : Option Link) (t : Nat),
    Sd n s → (value ≠ none → key ≠ []) → consumed ≤ 64 → 65 ≤ f + consumed → FineC n (Shard.swapValue H net f s consumed key value t) := by
  induction f with
  | zero => intro s consumed key value t hs hk hc hf; omega
  | succ f ih =>
    intro s consumed key value t hs hk hle hf
    have hlg := hs.lg hv
    have hHk := hH key
    rw [Shard.swapValue]
    by_cases hd : (H key).length * 8 < consumed + s.lg
    · rw [nextBits_deep _ _ _ hd]; exact .fail ⟨by simp, by simp⟩ hs
    rw [nextBits_ok _ _ _ (by omega) (by omega)]
    dsimp only
    have hidx : beNat (H key) / 2 ^ ((H key).length * 8 - consumed - s.lg) % 2 ^ s.lg < n := by rw [← hlg.2.2]; exact Nat.mod_lt _ (by positivity)
    generalize beNat (H key) / 2 ^ ((H key).length * 8 - consumed - s.lg) % 2 ^ s.lg = idx at hidx ⊢
    split
    · have := hs.insert (s' := s) (v := value) hidx hk
      split
      · rename_i e he; rw [he] at this; exact .fail this hs
      · rename_i s' he; rw [he] at this; exact .good this
    rename_i hbit
    have hbit : bfBit s.bf idx = true := by simpa using hbit
    have hg := hs.get (net := net) (s.sliceIndex idx) t
    generalize s.get net (s.sliceIndex idx) t = G at hg ⊢
    obtain ⟨r, t1⟩ := G
    cases r with
    | error e => exact .fail hg hs
    | ok q =>
      obtain ⟨c, s1⟩ := q
      obtain ⟨g1, g2, g3, g4⟩ := hg
      dsimp only
      split
      · rename_i hcv
        split
        · split
          · have := g2.rm hidx (by rw [g3]; exact hbit)
            split
            · rename_i e he; rw [he] at this; exact .fail this g2
            · rename_i s' he; rw [he] at this; exact .good this
          · rename_i v
            refine .good (g2.set _ (x := .child _) (fun h' => ?_))
            cases c
            rw [Shard.isValueNode, Bool.and_eq_true] at hcv
            rw [Shard.isValueNode, Bool.and_eq_false_iff] at h'
            rcases h' with h' | h'
            · exact absurd (of_decide_eq_true hcv.1) (of_decide_eq_false h')
            · cases h'
        · split
          · exact .fail ⟨by simp, by simp⟩ g2
          · rename_i v
            have h0 : newShard s1.size = .ok (.mk n (bfNew n) [] none [] none) := by rw [g2.size]; exact makeShard_valid hv _ _
            rw [h0]
            dsimp only
            have hs0 : Sd n ((Shard.mk n (bfNew n) [] none [] none).setCidBuilder s1.builder) := by
              refine Sd.builder (Sd.of (s := Shard.mk n (bfNew n) [] none [] none) rfl (isBf_new (valid_dvd hv)).len ?_ rfl (fun x hx => absurd hx (by simp [Shard.slots]))) _
              show (ones n (bfNew n)).length ≤ 0
              rw [ones_new]; exact le_refl _
            have h1 := ih _ (consumed + s.lg) key (some v) t1 hs0 hk (by omega) (by omega)
            generalize Shard.swapValue H net f ((Shard.mk n (bfNew n) [] none [] none).setCidBuilder s1.builder) (consumed + s.lg) key (some v) t1 = R at h1 ⊢
            obtain ⟨r, c1, t2⟩ := R
            cases r with
            | error e => exact .fail (h1.1 e rfl) g2
            | ok o =>
              dsimp only
              have hck : c.key ≠ [] := by rw [Shard.isValueNode, Bool.and_eq_true] at hcv; exact of_decide_eq_true hcv.1
              have h2 := ih c1 (consumed + s.lg) c.key c.val t2 h1.2 (fun _ => hck) (by omega) (by omega)
              generalize Shard.swapValue H net f c1 (consumed + s.lg) c.key c.val t2 = R at h2 ⊢
              obtain ⟨r, c2, t3⟩ := R
              cases r with
              | error e => exact .fail (h2.1 e rfl) g2
              | ok o => exact .good (g2.set _ (x := .child _) (fun _ => h2.2))
      · rename_i hcv
        have hc := g1 (by simpa using hcv)
        have := ih c (consumed + s.lg) key value t1 hc hk (by omega) (by omega)
        generalize Shard.swapValue H net f c (consumed + s.lg) key value t1 = R at this ⊢
        obtain ⟨r, c', t2⟩ := R
        cases r with
        | error e => exact .fail (this.1 e rfl) (g2.set _ (x := .child _) (fun _ => this.2))
        | ok o =>
          dsimp only
          split
          · exact .good (g2.set _ (x := .child _) (fun _ => this.2))
          · refine collapse_sd (g2.set _ (x := .child _) (fun _ => this.2)) this.2 hidx ?_ _ _ _
            rw [bf_withSlots, g3]; exact hbit

/-- The loop of `ForEachLink`, if the positions that are left have depth at most `f`. -/
theorem eachLoop_sd {net : Net} {step : Shard → EachSt → Option Err × Shard × EachSt} {f : Nat}
    (hstep : ∀ c st, (c.isValueNode = false → Sd n c ∧ c.depth ≤ f) → (∀ e, (step c st).1 = some e → e.Sane) ∧ ((step c st).2.1.isValueNode = false → Sd n (step c st).2.1)) :
    ∀ (is : List Nat) (s : Shard) (st : EachSt), is.Nodup → Sd n s → (∀ j ∈ is, ∀ x, s.slots[j]? = some x → slotDepth x ≤ f) →
      (∀ e, (eachLoop net step is s st).1 = some e → e.Sane) ∧ Sd n (eachLoop net step is s st).2.1 := by
  intro is
  induction is with
  | nil => intro s st _ hs _; exact ⟨(fun e h => nomatch h), hs⟩
  | cons i is ih =>
    intro s st hn hs hd
    obtain ⟨hi, hn⟩ := List.nodup_cons.mp hn
    rw [eachLoop]
    have hg := hs.get (net := net) i st.t
    generalize s.get net i st.t = G at hg ⊢
    obtain ⟨r, t1⟩ := G
    cases r with
    | error e => exact ⟨fun e' h => by cases h; exact hg, hs⟩
    | ok q =>
      obtain ⟨c, s1⟩ := q
      obtain ⟨g1, g2, _, ⟨x, g3, g4⟩, g5⟩ := hg
      dsimp only
      have h1 := hstep c { st with t := t1 } (fun hv => ⟨g1 hv, le_trans (g4 hv) (hd i (by simp) x g3)⟩)
      generalize step c { st with t := t1 } = R at h1 ⊢
      obtain ⟨e, c', st'⟩ := R
      cases e with
      | some e => exact ⟨fun e' h => by cases h; exact h1.1 e rfl, g2.set i (x := .child _) h1.2⟩
      | none =>
        refine ih _ _ hn (g2.set i (x := .child _) h1.2) (fun j hj y hy => ?_)
        have hji : j ≠ i := fun h => hi (h ▸ hj)
        refine hd j (by simp [hj]) y ?_
        rw [← g5 j hji]
        rw [← hy]
        cases s1
        exact (List.getElem?_set_ne (Ne.symm hji)).symm

theorem forEach_sd (net : Net) (cb : Nat → Bool) (f : Nat) : ∀ (s : Shard) (st : EachSt), Sd n s → s.depth ≤ f →
    (∀ e, (forEachF net cb f s st).1 = some e → e.Sane) ∧ Sd n (forEachF net cb f s st).2.1 := by
  induction f with
  | zero => intro s st _ h; cases s; simp [Shard.depth] at h
  | succ f ih =>
    intro s st hs hd
    rw [forEachF]
    refine eachLoop_sd (f := f) (fun c st' hc => ?_) _ _ _ List.nodup_range hs (fun j _ x hx => ?_)
    · dsimp only
      split
      · rename_i hv
        refine ⟨fun e he => ?_, fun h => ?_⟩
        · dsimp only at he
          split at he
          · cases he; exact ⟨by simp, by simp⟩
          · cases he
        · dsimp only at h
          cases c
          rw [Shard.isValueNode, Bool.and_eq_true] at hv
          rw [Shard.isValueNode, Bool.and_eq_false_iff] at h
          rcases h with h | h
          · exact absurd (of_decide_eq_true hv.1) (of_decide_eq_false h)
          · cases h
      · rename_i hv
        have := hc (by simpa using hv)
        have := ih c st' this.1 this.2
        exact ⟨this.1, fun _ => this.2⟩
    · have := slotDepth_le (List.mem_of_getElem? hx)
      cases s
      simp only [Shard.depth, Shard.slots] at hd this
      omega

/-- A node that, if it is accepted, gives a consistent shard. -/
def SdNode (n : Nat) (nd : Node) : Prop := ∀ c, newHamtFromDag nd = .ok c → Sd n c

theorem load_sd (hv : ValidSize n) {bf : Bytes} (hl : bf.length * 8 = n) {ls : List Link} (hls : ls.length = (ones n bf).length) (b : Builder)
    (h : ∀ l ∈ ls, SdSlot n (.link l)) : SdNode n (.proto (shardData n (ones n bf)) ls b) := by
  intro c hc
  have h4 : makeShard (u64ToInt ((some (UInt64.ofNat n)).getD 0)) [] none = .ok (.mk n (bfNew n) [] none [] none) := by
    rw [Option.getD_some, u64ToInt_size hv, makeShard_valid hv]
  rw [load_core (shardData_unmarshal hv _ ones_lt) rfl rfl h4] at hc
  simp only [Shard.size, Shard.bf, Pb.Data.getData] at hc
  rw [bfSetBytes_bytes n _ (isBf_bfOf (valid_dvd hv) ones_lt).len, ← bf_eq (valid_dvd hv) ones_lt (isBf_ones hl)] at hc
  cases hc
  refine .of rfl hl (by simp [Shard.slots, Shard.bf, hls]) rfl (fun x hx => ?_)
  simp only [Shard.slots, List.mem_map] at hx
  obtain ⟨l, hl, rfl⟩ := hx
  exact h l hl

mutual
theorem toNode_sd (hv : ValidSize n) (ref : Nat → Bool) : ∀ (s : Shard) (st : List Node), Sd n s →
    match (s.toNode ref st).1 with | .error e => e.Sane | .ok nd => SdNode n nd
  | .mk size bf slots b key val, st, h => by
    have hn : size = n := h.size
    have := linksOf_sd hv ref slots (ones n bf) st h.cnt h.slot ones_lt
    rw [Shard.toNode, hn]
    rw [ones] at this
    generalize linksOf ref n slots ((List.range n).filter (fun i => bfBit bf i)) st = R at this ⊢
    obtain ⟨r, st'⟩ := R
    cases r with
    | error e => exact this
    | ok ls =>
      have hl : bf.length * 8 = n := h.len
      dsimp only at this ⊢
      rw [hamtShardData_eq hv ones_lt (isBf_ones hl)]
      dsimp only
      by_cases hr : ref st'.length = true
      · rw [if_pos hr]; exact ⟨by simp, by simp⟩
      · rw [if_neg hr]; exact load_sd hv hl this.1 _ this.2
theorem linksOf_sd (hv : ValidSize n) (ref : Nat → Bool) : ∀ (ss : List Slot) (is : List Nat) (st : List Node), is.length ≤ ss.length → (∀ x ∈ ss, SdSlot n x) → (∀ i ∈ is, i < n) →
    match (linksOf ref n ss is st).1 with | .error e => e.Sane | .ok ls => ls.length = is.length ∧ ∀ l ∈ ls, SdSlot n (.link l)
  | ss, [], st, _, _, _ => by cases ss <;> simp [linksOf]
  | [], i :: is, st, h, _, _ => by simp at h
  | .child s :: ss, i :: is, st, h, hs, hi => by
    have hp := prefix_length hv (hi i (by simp))
    have hc := hs (.child s) (by simp)
    have ih := fun st' => linksOf_sd hv ref ss is st' (by simpa using h) (fun x hx => hs x (by simp [hx])) (fun j hj => hi j (by simp [hj]))
    have hfin : ∀ (l : Link) (st' : List Node), SdSlot n (.link (Link.rename l (linkNamePrefix n i ++ s.key))) →
        match (match linksOf ref n ss is st' with
          | (.error e, st'') => ((.error e, st'') : Except Err (List Link) × List Node)
          | (.ok ls, st'') => (.ok (Link.rename l (linkNamePrefix n i ++ s.key) :: ls), st'')).1 with
        | .error e => e.Sane | .ok ls => ls.length = (i :: is).length ∧ ∀ l ∈ ls, SdSlot n (.link l) := by
      intro l st' hl
      have := ih st'
      generalize linksOf ref n ss is st' = R at this ⊢
      obtain ⟨r, st''⟩ := R
      cases r with
      | error e => exact this
      | ok ls =>
        refine ⟨by simpa using this.1, fun l' hl' => ?_⟩
        rcases List.mem_cons.mp hl' with rfl | hl'
        · exact hl
        · exact this.2 l' hl'
    by_cases hval : s.isValueNode = true
    · have hval' := hval
      rw [Shard.isValueNode, Bool.and_eq_true] at hval'
      obtain ⟨v, hvv⟩ := Option.isSome_iff_exists.mp hval'.2
      have hk : s.key ≠ [] := of_decide_eq_true hval'.1
      rw [linksOf, if_pos hval, hvv]
      refine hfin v st ⟨?_, fun hh => ?_⟩
      · simp [Link.rename, Link.name, hp]
      · simp [Link.rename, Link.name, hp, hk] at hh
    · have hsd := hc (by simpa using hval)
      have hk := hsd.key
      have hto := toNode_sd hv ref s st hsd
      rw [linksOf, if_neg hval]
      generalize Shard.toNode ref s st = R at hto ⊢
      obtain ⟨r, st'⟩ := R
      cases r with
      | error e => exact hto
      | ok nd =>
        by_cases hr : ref st'.length = true
        · simp only [if_pos hr]; exact ⟨by simp, by simp⟩
        · simp only [if_neg hr]
          refine hfin (makeLink [] nd) _ ⟨?_, fun _ => ?_⟩
          · simp [Link.rename, Link.name, hp]
          · exact hto
  | .link l :: ss, i :: is, st, h, hs, hi => by
    have hp := prefix_length hv (hi i (by simp))
    have hc := hs (.link l) (by simp)
    have ih := linksOf_sd hv ref ss is st (by simpa using h) (fun x hx => hs x (by simp [hx])) (fun j hj => hi j (by simp [hj]))
    rw [linksOf, if_neg (by have := hc.1; omega)]
    generalize linksOf ref n ss is st = R at ih ⊢
    obtain ⟨r, st''⟩ := R
    cases r with
    | error e => exact ih
    | ok ls =>
      refine ⟨by simpa using ih.1, fun l' hl' => ?_⟩
      rcases List.mem_cons.mp hl' with rfl | hl'
      · refine ⟨?_, fun hh => ?_⟩
        · simp [Link.rename, Link.name, hp]
        · refine hc.2 ?_
          have := hc.1
          simp only [Link.rename, Link.name, List.length_append, hp, List.length_drop] at hh this ⊢
          cases l
          simp only [Link.name] at hh this ⊢
          omega
      · exact ih.2 l' hl'
end

/-- What loading a node looks at. -/
theorem load_inv {nd : Node} {s : Shard} (h : newHamtFromDag nd = .ok s) : ∃ d ls b m k, nd = .proto d ls b ∧ Pb.Data.unmarshal d = .ok m ∧ m.typ = some THAMTShard ∧
    3 ≤ k ∧ k ≤ 10 ∧ u64ToInt (m.fanout.getD 0) = 2 ^ k ∧ s = .mk (2 ^ k) (bfSetBytes (bfNew (2 ^ k)) (m.data.getD [])) (ls.map Slot.link) (some b) [] none := by
  unfold newHamtFromDag at h
  split at h
  · rename_i d ls b
    split at h
    · cases h
    · rename_i fs hfs
      split at h
      · cases h
      · rename_i ht
        split at h
        · cases h
        · split at h
          · cases h
          · rename_i s0 hm
            obtain ⟨k, h1, h2, h3, rfl⟩ := (makeShard_iff _ _ _ _).mp hm
            cases h
            rw [FSNode.fromBytes] at hfs
            split at hfs
            · cases hfs
            · rename_i m hm'
              cases hfs
              refine ⟨d, ls, b, m, k, rfl, hm', ?_, h1, h2, h3, rfl⟩
              have ht : m.getType = THAMTShard := by simpa [FSNode.type] using ht
              rw [Pb.Data.getType] at ht
              cases hty : m.typ with
              | none => rw [hty] at ht; revert ht; decide
              | some x => rw [hty] at ht; simpa using ht
  · cases h

theorem ones_load {k : Nat} (hk : 3 ≤ k) (data : Bytes) : ones (2 ^ k) (bfSetBytes (bfNew (2 ^ k)) data) = occupied (2 ^ k) (data.take (2 ^ k / 8)) ∧
    (bfSetBytes (bfNew (2 ^ k)) data).length * 8 = 2 ^ k := by
  have hd : 2 ^ k / 8 * 8 = 2 ^ k := Nat.div_mul_cancel (by exact pow_dvd_pow 2 hk)
  have hl : (bfSetBytes (bfNew (2 ^ k)) data).length * 8 = 2 ^ k := by
    rw [bfSetBytes, bfNew]
    simp only [List.length_append, List.length_take, List.length_replicate]
    omega
  refine ⟨?_, hl⟩
  rw [ones, occupied]
  refine List.filter_congr (fun i hi => ?_)
  rw [bfBit_beNat _ _ (by rw [hl]; simpa using hi), bfSetBytes, bfNew]
  simp only [List.length_replicate, List.take_replicate]
  rw [beNat_zeros]

theorem bmod_small {x z : Nat} (hx : x < 18446744073709551616) (hz : z ≤ 1024) (h : Int.bmod x 18446744073709551616 = (z : Int)) : x = z := by
  rw [Int.bmod_def] at h
  split at h <;> omega

theorem toNat_of_u64 {x : UInt64} {k : Nat} (hk : k ≤ 10) (h : u64ToInt x = 2 ^ k) : x.toNat = 2 ^ k := by
  refine bmod_small x.toNat_lt (le_trans (Nat.pow_le_pow_right (by omega) hk) (by norm_num)) ?_
  rw [Nat.cast_pow, Nat.cast_ofNat]
  exact h

theorem load_consistent (f : Nat) : ∀ {nd : Node}, nodeDepth nd ≤ f → Consistent n nd → SdNode n nd := by
  induction f with
  | zero => intro nd h; cases nd <;> simp [nodeDepth] at h
  | succ f ih =>
    intro nd hd hc s hs
    obtain ⟨d, ls, b, m, k, rfl, h1, h2, h3, h4, h5, rfl⟩ := load_inv hs
    obtain ⟨c1, c2, c3⟩ := hc d ls b m (.self _) h1 h2
    have hn : 2 ^ k = n := by
      cases hf : m.fanout with
      | none => rw [hf] at c1; cases c1
      | some x =>
        rw [hf] at c1 h5
        simp only [Option.map_some, Option.some.injEq] at c1
        rw [← c1]
        exact (toNat_of_u64 h4 (by simpa using h5)).symm
    subst hn
    obtain ⟨o1, o2⟩ := ones_load h3 (m.data.getD [])
    have hpad := maxpadlen_digits (size := 2 ^ k) ⟨k, h3, h4, rfl⟩
    refine .of rfl o2 ?_ rfl (fun x hx => ?_)
    · show (ones (2 ^ k) (bfSetBytes (bfNew (2 ^ k)) (m.data.getD []))).length ≤ (ls.map Slot.link).length
      rw [o1]; simpa using c2
    · obtain ⟨l, hl, rfl⟩ := List.mem_map.mp hx
      refine ⟨by rw [hpad]; exact c3 l hl, fun hlen => ih ?_ ?_⟩
      · have := slotDepth_le (List.mem_map_of_mem (f := Slot.link) hl)
        rw [slotsDepth_links] at this
        rw [nodeDepth] at hd
        have e : slotDepth (.link l) = nodeDepth l.target := rfl
        omega
      · intro d' ls' b' m' hsub
        exact hc d' ls' b' m' (.link hl (by rw [← hpad]; exact hlen) hsub)

mutual
/-- A check of `Consistent`, for examples. -/
def conN (n : Nat) : Node → Bool
  | .proto d ls _ => (match Pb.Data.unmarshal d with
      | .ok m => m.typ ≠ some THAMTShard || (m.fanout.map UInt64.toNat = some n && (occupied n ((m.data.getD []).take (n / 8))).length ≤ ls.length && ls.all (fun l => digits n ≤ l.name.length))
      | .error _ => true) && conL n ls
  | .raw .. => true
  | .other .. => true
def conL (n : Nat) : List Link → Bool
  | [] => true
  | .mk nm _ x :: ls => (nm.length ≠ digits n || conN n x) && conL n ls
end

theorem conL_mem : ∀ {ls : List Link}, conL n ls = true → ∀ l ∈ ls, l.name.length = digits n → conN n l.target = true
  | .mk nm z x :: ls, h, l, hl, hd => by
    rw [conL, Bool.and_eq_true] at h
    rcases List.mem_cons.mp hl with rfl | hl
    · have := h.1
      simp only [Link.name] at hd
      simpa [hd, Link.target] using this
    · exact conL_mem h.2 l hl hd

theorem consistent_of {nd : Node} (h : conN n nd = true) : Consistent n nd := by
  intro d ls b m hs hm ht
  generalize hx : Node.proto d ls b = x at hs
  induction hs with
  | self nd =>
    subst hx
    rw [conN, hm, Bool.and_eq_true] at h
    simpa [ht, and_assoc] using h.1
  | link hl hn _ ih =>
    rw [conN, Bool.and_eq_true] at h
    exact ih (conL_mem h.2 _ hl hn) hx

end Unixfs.File
