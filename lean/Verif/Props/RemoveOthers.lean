import Verif.Props.RemoveAny

/-!
# C127: removing a name leaves the others, in sharded directories of one width

The definitions in this file belong to proofs; they model no code.
-/

namespace Unixfs.Props
open Unixfs.Hamt hiding exec execAll results NoEmptyName lastWrite Cfg
open Unixfs.Dir Unixfs.File Unixfs.Spec

variable {net : Net} {H : Hash}

/-- The number of set bits below an index, after one was cleared. -/
theorem ones_unset {size : Nat} {bf : Bytes} {l : List Nat} {i j : Nat} (h : IsBf size bf l) (hi : i < size) (hj : j < size) (hb : bfBit bf i = true) (hij : i ≠ j) :
    bfOnesBefore bf j = bfOnesBefore (bfUnset bf i) j + (if i < j then 1 else 0) ∧ bfBit (bfUnset bf i) j = bfBit bf j := by
  have h' : IsBf size (bfUnset bf i) (l.filter (· ≠ i)) := isBf_unset h hi (fun j => by rw [List.mem_filter]; simp [and_comm])
  have hl : i ∈ l := by rw [h.bit i hi] at hb; simpa using hb
  refine ⟨?_, by
    rw [h'.bit j hj, h.bit j hj]
    have hne : j ≠ i := fun e => hij e.symm
    simp [List.mem_filter, hne]⟩
  rw [onesBefore_eq h' hj, onesBefore_eq h hj]
  clear hj hij
  induction j with
  | zero => simp
  | succ j ih =>
    rw [List.range_succ, List.filter_append, List.filter_append, List.length_append, List.length_append, ih]
    by_cases hji : j = i
    · subst hji
      have e1 : ([j].filter (· ∈ l)).length = 1 := by simp [hl]
      have e2 : ([j].filter (· ∈ l.filter (· ≠ j))).length = 0 := by simp
      rw [e1, e2, if_neg (by omega), if_pos (by omega)]
    · have e : ([j].filter (· ∈ l.filter (· ≠ i))).length = ([j].filter (· ∈ l)).length := by
        by_cases hm : j ∈ l <;> simp [hji, hm]
      rw [e]
      by_cases h2 : i < j
      · rw [if_pos h2, if_pos (by omega)]; omega
      · rw [if_neg h2, if_neg (by omega)]; omega

/-- All shards down to some level are of one width. -/
def OneWidth (w : Nat) : Nat → Shard → Prop
  | 0, s => s.size = w
  | f + 1, s => s.size = w ∧ ∀ i c, childAt s i = some c → c.isValueNode = false → OneWidth w f c

theorem OneWidth.size {w : Nat} : ∀ {f : Nat} {s : Shard}, OneWidth w f s → s.size = w
  | 0, _, h => h
  | _ + 1, _, h => h.1

theorem setLink_slots (s : Shard) (l : Link) (i : Nat) : (s.setLink l i).slots = s.slots.set i (.link l) ∧ (s.setLink l i).size = s.size ∧ (s.setLink l i).bf = s.bf ∧ (s.setLink l i).key = s.key ∧
    (s.setLink l i).val = s.val := by cases s; exact ⟨rfl, rfl, rfl, rfl, rfl⟩

theorem setChild_keep (s c : Shard) (i : Nat) : (s.setChild c i).bf = s.bf ∧ (s.setChild c i).key = s.key ∧ (s.setChild c i).val = s.val := by cases s; exact ⟨rfl, rfl, rfl⟩

theorem rm_keep {s s' : Shard} {i : Nat} (h : s.rm i = .ok s') : s'.key = s.key ∧ s'.val = s.val ∧ s'.size = s.size ∧ s'.bf = bfUnset s.bf i ∧ s'.slots = s.slots.eraseIdx (s.sliceIndex i) := by
  unfold Shard.rm at h
  dsimp only at h
  split at h
  · cases h
  · cases h; simp

/-- What the shard itself keeps when a name is taken out. -/
theorem take_keep {f n t t1 : Nat} {s s' : Shard} {key : Bytes} {o : Option Link} (h : Shard.swapValue H net f s n key none t = (.ok o, s', t1)) : s'.key = s.key ∧ s'.val = s.val ∧ s'.size = s.size := by
  cases f with
  | zero => cases h
  | succ f =>
    unfold Shard.swapValue at h
    cases hx : nextBits (H key) n s.lg with
    | error e => rw [hx] at h; cases h
    | ok y =>
      obtain ⟨idx, n'⟩ := y
      rw [hx] at h
      dsimp only at h
      split at h
      · cases h
      · rcases hg : s.get net (s.sliceIndex idx) t with ⟨_ | ⟨c, s1⟩, ta⟩
        · rw [hg] at h; cases h
        rw [hg] at h
        dsimp only at h
        obtain ⟨k1, k2, k3, _⟩ := keep_get hg
        split at h
        · split at h
          · split at h
            · cases h
            · next s2 hr =>
              obtain ⟨a, b, c, _⟩ := rm_keep hr
              cases h
              exact ⟨a.trans k1, b.trans k2, c.trans k3⟩
          · cases h
        · rcases h1 : Shard.swapValue H net f c n' key none ta with ⟨_ | old, c', t2⟩
          · rw [h1] at h; cases h
          rw [h1] at h
          dsimp only at h
          obtain ⟨q1, q2, q3⟩ := setChild_keep s1 c' (s.sliceIndex idx)
          have q4 := (setChild_slots s1 c' (s.sliceIndex idx)).2
          rcases hc : (s1.setChild c' (s.sliceIndex idx)).collapse idx (s.sliceIndex idx) c' old with ⟨r, s2⟩
          rw [hc] at h
          cases h
          unfold Shard.collapse at hc
          have base : ∀ q : Shard, q.key = (s1.setChild c' (s.sliceIndex idx)).key → q.val = (s1.setChild c' (s.sliceIndex idx)).val → q.size = (s1.setChild c' (s.sliceIndex idx)).size →
              q.key = s.key ∧ q.val = s.val ∧ q.size = s.size := fun q a b c => ⟨a.trans (q2.trans k1), b.trans (q3.trans k2), c.trans (q4.trans k3)⟩
          split at hc
          · split at hc
            · cases hc
            · next s2' hr =>
              obtain ⟨a, b, c, _⟩ := rm_keep hr
              cases hc
              exact base _ a b c
          · next sc _ =>
            have hs2 := (Prod.mk.inj hc).2
            rw [← hs2]
            split
            · exact base _ (setChild_keep _ _ _).2.1 (setChild_keep _ _ _).2.2 (setChild_slots _ _ _).2
            · exact base _ rfl rfl rfl
          · next l _ =>
            split at hc
            · cases hc
            · cases hc
              obtain ⟨_, a, _, b, c⟩ := setLink_slots (s1.setChild c' (s.sliceIndex idx)) l (s.sliceIndex idx)
              exact base _ b c a
            · cases hc; exact base _ rfl rfl rfl
          · cases hc; exact base _ rfl rfl rfl

/-- Taking one name out leaves the others where they are found, if all shards are of one width. -/
theorem others_kept {w : Nat} : ∀ (f : Nat) (s s' : Shard) (n : Nat) (key k : Bytes) (t t1 u u' : Nat) (o : Option Link) (x : Node), k ≠ key → Wide s → OneWidth w f s →
    Shard.swapValue H net f s n key none t = (.ok o, s', t1) → tgt (Shard.getValue H allNet f s n k u).1 = .ok (some x) → tgt (Shard.getValue H allNet f s' n k u').1 = .ok (some x)
  | 0, s, s', n, key, k, t, t1, u, u', o, x, hne, hw, ho, h, hf => by cases h
  | f + 1, s, s', n, key, k, t, t1, u, u', o, x, hne, hw, ho, h, hf => by
    obtain ⟨j, nj, d, hxj, hbj, hd, hcase⟩ := getValue_step hf
    have hj := hw.lt hxj
    have hlg := lg_spec hw.valid
    have hsz := (take_keep h).2.2
    unfold Shard.swapValue at h
    cases hx : nextBits (H key) n s.lg with
    | error e => rw [hx] at h; cases h
    | ok y =>
      obtain ⟨idx, n'⟩ := y
      rw [hx] at h
      dsimp only at h
      have hidx := hw.lt hx
      have hnn : n' = nj := by rw [(nextBits_inv hlg.1 hx).2, (nextBits_inv hlg.1 hxj).2]
      subst hnn
      -- the lookup of `k` when the child in its place is known
      have at_ : ∀ e, bfBit s'.bf j = true → childAt s' (s'.sliceIndex j) = some e → ∃ v, (Shard.getValue H allNet (f + 1) s' n k u').1 =
          if e.isValueNode then (if e.key = k then .ok e.val else .error .notExist) else (Shard.getValue H allNet f e n' k v).1 := fun e hb hc =>
        getValue_back (H := H) (f := f) (u := u') (by unfold Shard.lg at hxj ⊢; rw [hsz]; exact hxj) hb hc
      have same : bfBit s'.bf j = true → childAt s' (s'.sliceIndex j) = some d → tgt (Shard.getValue H allNet (f + 1) s' n k u').1 = .ok (some x) := by
        intro hb hc
        obtain ⟨v, hv⟩ := at_ d hb hc
        rw [hv]
        rcases hcase with ⟨a, b, c⟩ | ⟨a, u0, b⟩
        · rw [if_pos a, if_pos b]; exact c
        · rw [if_neg (by simp [a])]
          have e2 := (find_loaded (net := allNet) H f d d n' k u0 v (.refl _)).1
          rcases e2 with e2 | e2
          · rw [e2] at b; cases b
          · rw [← e2]; exact b
      split at h
      · cases h
      · next hbit =>
        have hbit : bfBit s.bf idx = true := by simpa using hbit
        rcases hg : s.get net (s.sliceIndex idx) t with ⟨_ | ⟨c, s1⟩, ta⟩
        · rw [hg] at h; cases h
        rw [hg] at h
        dsimp only at h
        obtain ⟨k1, k2, k3, k4, k5, k6⟩ := keep_get hg
        obtain ⟨wc, ws⟩ := hw.get hg
        have hcc : childAt s (s.sliceIndex idx) = some c := by
          have e1 : (s.get net (s.sliceIndex idx) t).1 = .ok (c, s1) := by rw [hg]
          have e2 := (get_net (net := net) (t := t) s (s.sliceIndex idx)).resolve_left (by rw [e1]; exact fun h => by cases h)
          unfold childAt
          rw [← e2, e1]
        have pos : idx ≠ j → (idx < j → s.sliceIndex idx < s.sliceIndex j) ∧ (¬ idx < j → s.sliceIndex j < s.sliceIndex idx) := by
          intro hij
          constructor
          · intro hlt
            have := ones_mono hw.bits hidx hj hlt
            rw [hbit] at this
            show bfOnesBefore s.bf idx < bfOnesBefore s.bf j
            simp at this
            omega
          · intro hlt
            have := ones_mono hw.bits hj hidx (by omega)
            rw [hbj] at this
            show bfOnesBefore s.bf j < bfOnesBefore s.bf idx
            simp at this
            omega
        -- `k` is in another position, which stays
        have far : idx ≠ j → s'.bf = s.bf → (∀ p, p ≠ s.sliceIndex idx → s'.slots[p]? = s.slots[p]?) → tgt (Shard.getValue H allNet (f + 1) s' n k u').1 = .ok (some x) := by
          intro hij hbf hsl
          have hp := pos hij
          have hpne : s.sliceIndex j ≠ s.sliceIndex idx := by
            by_cases hlt : idx < j
            · have := hp.1 hlt; omega
            · have := hp.2 hlt; omega
          have e : s'.sliceIndex j = s.sliceIndex j := by
            show bfOnesBefore s'.bf j = bfOnesBefore s.bf j
            rw [hbf]
          refine same (by rw [hbf]; exact hbj) ?_
          rw [← hd, e]
          exact childAt_slot hsz (hsl _ hpne)
        -- `k` is in another position, which may move
        have gone : idx ≠ j → ∀ q : Shard, q.bf = s.bf → (∀ p, p ≠ s.sliceIndex idx → q.slots[p]? = s.slots[p]?) → q.rm idx = .ok s' →
            tgt (Shard.getValue H allNet (f + 1) s' n k u').1 = .ok (some x) := by
          intro hij q hqb hqs hr
          obtain ⟨_, _, _, r4, r5⟩ := rm_keep hr
          obtain ⟨hp, hb⟩ := ones_unset hw.bits hidx hj hbit hij
          have e0 : q.sliceIndex idx = s.sliceIndex idx := by
            show bfOnesBefore q.bf idx = bfOnesBefore s.bf idx
            rw [hqb]
          have e : s.sliceIndex j = s'.sliceIndex j + (if idx < j then 1 else 0) := by
            show bfOnesBefore s.bf j = bfOnesBefore s'.bf j + _
            rw [r4, hqb]
            exact hp
          refine same (by rw [r4, hqb, hb]; exact hbj) ?_
          rw [← hd]
          refine childAt_slot hsz ?_
          rw [r5, e0, List.getElem?_eraseIdx]
          by_cases hlt : idx < j
          · have := (pos hij).1 hlt
            rw [if_pos hlt] at e
            rw [if_neg (by omega), e]
            exact hqs _ (by omega)
          · have := (pos hij).2 hlt
            rw [if_neg hlt] at e
            rw [if_pos (by omega), e]
            exact hqs _ (by omega)
        have s1s : ∀ p, p ≠ s.sliceIndex idx → s1.slots[p]? = s.slots[p]? := fun p hp => (get_keeps hg hp).1
        split at h
        · next hv =>
          split at h
          · next hkk =>
            split at h
            · cases h
            · next s2 hr =>
              have hs2 : s2 = s' := by cases h; rfl
              subst hs2
              by_cases hij : idx = j
              · exfalso
                have hdc : d = c := by rw [hij] at hcc; rw [hd] at hcc; cases hcc; rfl
                subst hdc
                rcases hcase with ⟨_, b, _⟩ | ⟨a, _⟩
                · exact hne (b.symm.trans hkk)
                · rw [hv] at a; cases a
              · exact gone hij s1 k4 s1s hr
          · cases h
        · next hv =>
          rcases h1 : Shard.swapValue H net f c n' key none ta with ⟨_ | old, c1, t2⟩
          · rw [h1] at h; cases h
          rw [h1] at h
          dsimp only at h
          have ka := take_keep h1
          have hvc : c.isValueNode = false := by simpa using hv
          have hv1 : c1.isValueNode = false := by unfold Shard.isValueNode at hvc ⊢; rw [ka.1, ka.2.1]; exact hvc
          have hoc : OneWidth w f c := ho.2 _ _ hcc hvc
          have hw1 : c1.size = s.size := by rw [ka.2.2, hoc.size, ho.1]
          -- the shard with the changed child
          generalize hq : s1.setChild c1 (s.sliceIndex idx) = q at h
          have qb : q.bf = s.bf := by rw [← hq, (setChild_keep _ _ _).1, k4]
          have qz : q.size = s.size := by rw [← hq, (setChild_slots _ _ _).2, k3]
          have qs : ∀ p, p ≠ s.sliceIndex idx → q.slots[p]? = s.slots[p]? := by
            intro p hp
            rw [← hq, (setChild_slots _ _ _).1, List.getElem?_set_ne (fun e => hp e.symm), s1s p hp]
          have ql : q.slots.length = s.slots.length := by rw [← hq, (setChild_slots _ _ _).1, List.length_set, k5]
          have qi : q.slots[s.sliceIndex idx]? = some (.child c1) := by
            rw [← hq, (setChild_slots _ _ _).1, List.getElem?_set_self (by rw [k5]; exact k6)]
          rcases hc : q.collapse idx (s.sliceIndex idx) c1 old with ⟨r, s2⟩
          rw [hc] at h
          have hs2 : s2 = s' := by injection h with _ h; injection h
          have hr : r = .ok o := by injection h
          subst hs2; subst hr
          by_cases hij : idx = j
          · -- what the child holds under `k`
            have hdc : d = c := by rw [hij] at hcc; rw [hd] at hcc; cases hcc; rfl
            subst hdc
            obtain ⟨u0, b⟩ : ∃ u0, tgt (Shard.getValue H allNet f d n' k u0).1 = .ok (some x) := by
              rcases hcase with ⟨a, _, _⟩ | ⟨_, b⟩
              · rw [hvc] at a; cases a
              · exact b
            have ih := fun v => others_kept f _ _ _ _ _ _ _ _ v _ _ hne wc hoc h1 b
            have here : ∀ e, s2.bf = s.bf → childAt s2 (s.sliceIndex idx) = some e → ∃ v, (Shard.getValue H allNet (f + 1) s2 n k u').1 =
                if e.isValueNode then (if e.key = k then .ok e.val else .error .notExist) else (Shard.getValue H allNet f e n' k v).1 := by
              intro e hbf hce
              refine at_ e (by rw [hbf]; exact hbj) ?_
              have : s2.sliceIndex j = s.sliceIndex idx := by
                show bfOnesBefore s2.bf j = bfOnesBefore s.bf idx
                rw [hbf, hij]
              rw [this]; exact hce
            have stay : s2 = q → tgt (Shard.getValue H allNet (f + 1) s2 n k u').1 = .ok (some x) := by
              intro e
              obtain ⟨v, hv⟩ := here c1 (by rw [e, qb]) (by rw [e]; unfold childAt Shard.get; rw [qi])
              rw [hv, if_neg (by simp [hv1])]
              exact ih v
            have inner : ∃ i e, childAt c1 i = some e ∧ ((e.isValueNode = true ∧ e.key = k ∧ tgt (.ok e.val) = .ok (some x)) ∨ e.isValueNode = false) := by
              cases f with
              | zero => exact absurd (ih 0) (fun h => by cases h)
              | succ f =>
                obtain ⟨_, _, e, _, _, he, hh⟩ := getValue_step (ih 0)
                exact ⟨_, e, he, hh.imp id And.left⟩
            obtain ⟨i1, e1, he1, hh⟩ := inner
            have slot : ∃ sl, c1.slots[i1]? = some sl := by
              cases hsl : c1.slots[i1]? with
              | some sl => exact ⟨sl, rfl⟩
              | none => unfold childAt Shard.get at he1; rw [hsl] at he1; cases he1
            obtain ⟨sl, hsl⟩ := slot
            -- a value that moved up
            have up : s2.bf = s.bf → childAt s2 (s.sliceIndex idx) = some e1 → e1.isValueNode = true → tgt (Shard.getValue H allNet (f + 1) s2 n k u').1 = .ok (some x) := by
              intro hbf hce hev
              obtain ⟨v, hv⟩ := here e1 hbf hce
              rcases hh with ⟨_, b1, b2⟩ | a
              · rw [hv, if_pos hev, if_pos b1]; exact b2
              · rw [hev] at a; cases a
            unfold Shard.collapse at hc
            split at hc
            · next h0 => rw [h0] at hsl; simp at hsl
            · next sc h0 =>
              have hs2 := (Prod.mk.inj hc).2
              split at hs2
              · next hscv =>
                have he : e1 = sc := by
                  unfold childAt Shard.get at he1
                  rw [h0] at hsl he1
                  cases i1 with
                  | zero => simp at he1; exact he1.symm
                  | succ i => simp at hsl
                subst he
                refine up (by rw [← hs2, (setChild_keep _ _ _).1, qb]) ?_ hscv
                have : s2.slots[s.sliceIndex idx]? = some (.child e1) := by
                  rw [← hs2, (setChild_slots _ _ _).1, List.getElem?_set_self (by rw [ql]; exact k6)]
                unfold childAt Shard.get
                rw [this]
              · exact stay hs2.symm
            · next l h0 =>
              split at hc
              · cases hc
              · next hlt =>
                have hs2 := (Prod.mk.inj hc).2
                obtain ⟨m1, m2, m3, _, _⟩ := setLink_slots q l (s.sliceIndex idx)
                have hz : i1 = 0 := by
                  rw [h0] at hsl
                  cases i1 with
                  | zero => rfl
                  | succ i => simp at hsl
                subst hz
                have hce : childAt s2 (s.sliceIndex idx) = some e1 := by
                  rw [← he1]
                  refine childAt_slot (by rw [hsz, hw1]) ?_
                  rw [← hs2, m1, List.getElem?_set_self (by rw [ql]; exact k6), h0]
                  rfl
                have hev : e1.isValueNode = true := by
                  have hm : makeShardValue c1.size l = .ok e1 := by
                    unfold childAt Shard.get at he1
                    rw [h0] at he1
                    dsimp only [List.getElem?_cons_zero] at he1
                    rw [hlt] at he1
                    dsimp only at he1
                    cases hm : makeShardValue c1.size l with
                    | error e => rw [hm] at he1; cases he1
                    | ok e => rw [hm] at he1; cases he1; rfl
                  exact (value_child hlt hm).1
                exact up (by rw [← hs2, m3, qb]) hce hev
              · exact stay (Prod.mk.inj hc).2.symm
            · exact stay (Prod.mk.inj hc).2.symm
          · unfold Shard.collapse at hc
            split at hc
            · split at hc
              · cases hc
              · next s3 hr =>
                have : s3 = s2 := (Prod.mk.inj hc).2
                subst this
                exact gone hij q qb qs hr
            · have hs2 := (Prod.mk.inj hc).2
              split at hs2
              · refine far hij (by rw [← hs2, (setChild_keep _ _ _).1, qb]) (fun p hp => ?_)
                rw [← hs2, (setChild_slots _ _ _).1, List.getElem?_set_ne (fun e => hp e.symm), qs p hp]
              · exact far hij (by rw [← hs2]; exact qb) (fun p hp => by rw [← hs2]; exact qs p hp)
            · next l _ =>
              split at hc
              · cases hc
              · have hs2 := (Prod.mk.inj hc).2
                obtain ⟨m1, m2, m3, _, _⟩ := setLink_slots q l (s.sliceIndex idx)
                refine far hij (by rw [← hs2, m3, qb]) (fun p hp => ?_)
                rw [← hs2, m1, List.getElem?_set_ne (fun e => hp e.symm), qs p hp]
              · have hs2 := (Prod.mk.inj hc).2
                exact far hij (by rw [← hs2]; exact qb) (fun p hp => by rw [← hs2]; exact qs p hp)
            · have hs2 := (Prod.mk.inj hc).2
              exact far hij (by rw [← hs2]; exact qb) (fun p hp => by rw [← hs2]; exact qs p hp)

/-- A check of `OneWidth`. -/
def oneWidth (w : Nat) : Nat → Shard → Bool
  | 0, s => s.size == w
  | f + 1, s => s.size == w && (List.range s.slots.length).all fun i => match childAt s i with | none => true | some c => c.isValueNode || oneWidth w f c

theorem oneWidth_sound {w : Nat} : ∀ {f : Nat} {s : Shard}, oneWidth w f s = true → OneWidth w f s
  | 0, s, h => by show s.size = w; simpa [oneWidth] using h
  | f + 1, s, h => by
    unfold oneWidth at h
    simp only [Bool.and_eq_true, beq_iff_eq, List.all_eq_true] at h
    refine ⟨h.1, fun i c hc hv => ?_⟩
    have hi : i < s.slots.length := by
      by_contra hn
      unfold childAt Shard.get at hc
      rw [List.getElem?_eq_none (by omega)] at hc
      cases hc
    have := h.2 i (List.mem_range.mpr hi)
    rw [hc] at this
    simp only [hv, Bool.false_or] at this
    exact oneWidth_sound this

/-- C127 for the sharded directories whose shards are all of one width, as deep as a lookup goes, and whatever else is wrong with them (`HAMTShardingSize` 0, the default): after `RemoveChild` without an
error every other name that was found gives the same node, or a block cannot be fetched. The width is needed: `C127_other_renamed`. -/
theorem C127_others_stay_sharded {env env' : Env} {root x : Node} {c c1 c2 : Dir.Cfg} {y : HamtDir} {w : Nat} {ops ops' : List DOp} {name k : Bytes} (hd : newDirectoryFromNode root = .ok c.dir)
    (ht : c.thr = 0) (hk : k ≠ name) (ho : ∀ op ∈ ops, Looks op) (ho' : ∀ op ∈ ops', Looks op) (hH : env'.H = env.H) (hl : (env.H k).length = (env.H name).length)
    (hh : (execAll env ops c).dir = .hamt y) (hw1 : OneWidth w (Shard.fuel env.H k) y.shard) (hf : (Dir.find env (execAll env ops c) k).1 = .ok x)
    (ha : Dir.removeChild env (execAll env ops c) name = (.ok (), c1)) (h2 : c2.dir = c1.dir) :
    (Dir.find env' (execAll env' ops' c2) k).1 = .ok x ∨ (Dir.find env' (execAll env' ops' c2) k).1 = .error .notFound := by
  rcases find_base (env := env') (name := k) (asked_same (env := env') ops' c2 (.refl _) ho') (env0 := { env' with net := allNet }) rfl rfl (c0 := c2) rfl with h | h
  · exact .inr h
  · rw [h]
    left
    have hw := (asked_same (env := env) ops c (.refl _) ho).wide (wide_dir hd)
    have hz := (asked_thr (env := env) ops c ho).trans ht
    generalize execAll env ops c = c0 at ha hw hz hf hh
    unfold Dir.removeChild at ha
    unfold Dir.find at hf ⊢
    rw [h2]
    rw [hh] at ha hw hf
    dsimp only at ha hf
    rw [hz, show y.needsToSwitchToBasicDir env 0 name none c0.t c0.k = (.ok false, y, c0.t, c0.k) from rfl] at ha
    dsimp only at ha
    unfold HamtDir.removeChild Shard.take at ha
    rcases hx : Shard.swapValue env.H env.net (Shard.fuel env.H name) y.shard 0 name none c0.t with ⟨_ | o, s', t'⟩
    · rw [hx] at ha; cases ha
    rw [hx] at ha
    dsimp only at ha
    injection ha with _ ha
    rw [← ha]
    have hb : tgt (Shard.getValue env.H allNet (Shard.fuel env.H k) y.shard 0 k 0).1 = .ok (some x) := by
      unfold HamtDir.find Shard.find at hf
      have hx := (find_loaded (net := env.net) env.H (Shard.fuel env.H k) y.shard y.shard 0 k c0.t 0 (Loaded.refl _)).1
      rcases hr : Shard.getValue env.H env.net (Shard.fuel env.H k) y.shard 0 k c0.t with ⟨r, s1, t2⟩
      rw [hr] at hf hx
      match r, hf, hx with
      | .ok (some l), hf, hx =>
        dsimp only at hf
        split at hf
        · injection hf with hf
          rw [← hx.resolve_left (fun e => by cases e), ← hf]
          rfl
        · cases hf
    have hfu : Shard.fuel env.H name = Shard.fuel env.H k := by unfold Shard.fuel; rw [hl]
    rw [hfu] at hx
    have key := others_kept _ _ _ _ _ _ _ _ _ c2.t _ _ hk hw hw1 hx hb
    unfold HamtDir.find Shard.find
    dsimp only
    rw [hH]
    rcases hg : Shard.getValue env.H allNet (Shard.fuel env.H k) s' 0 k c2.t with ⟨r, s4, t4⟩
    rw [hg] at key
    match r, key with
    | .ok (some l), key =>
      have hl : l.target = x := by
        simp only [tgt, Except.map, Option.map_some] at key
        injection key with key
        injection key
      dsimp only
      rw [hl]
      rfl

section Examples

theorem exDeep_remove : (match newDirectoryFromNode exDeep with
    | .ok d => (match Dir.removeChild (calmEnv H0) (start d 0) [0x62] with
      | (.ok (), _) => (match d with
        | .hamt h => decide ((oneWidth 8 (Shard.fuel H0 [0x61]) h.shard, (H0 [0x61]).length, (Dir.find (calmEnv H0) (start d 0) [0x61]).1.toOption) = (true, (H0 [0x62]).length, some (exNd 1)))
        | _ => false)
      | _ => false)
    | _ => false) = true := by decide +kernel

/-- The hypotheses are met by a directory of three shards, of which one is replaced by the entry that is left. -/
example : ∃ d c1, newDirectoryFromNode exDeep = .ok d ∧ Dir.removeChild (calmEnv H0) (start d 0) [0x62] = (.ok (), c1) ∧
    ((Dir.find lateEnv c1 [0x61]).1 = .ok (exNd 1) ∨ (Dir.find lateEnv c1 [0x61]).1 = .error .notFound) := by
  have h := exDeep_remove
  split at h
  · next d hd =>
    split at h
    · next c1 ha =>
      split at h
      · next y =>
        have h := of_decide_eq_true h
        simp only [Prod.mk.injEq] at h
        obtain ⟨h1, h2, h3⟩ := h
        have hf : (Dir.find (calmEnv H0) (start (.hamt y) 0) [0x61]).1 = .ok (exNd 1) := by
          generalize (Dir.find (calmEnv H0) (start (.hamt y) 0) [0x61]).1 = r at h3
          cases r with
          | error e => cases h3
          | ok z => cases h3; rfl
        exact ⟨_, c1, hd, ha, C127_others_stay_sharded (env := calmEnv H0) (env' := lateEnv) (c := start (.hamt y) 0) (name := [0x62]) (ops := []) (ops' := []) hd rfl (by decide) (fun _ h => by cases h)
          (fun _ h => by cases h) rfl h2 rfl (oneWidth_sound h1) hf ha rfl⟩
      · cases h
    · cases h
  · cases h

end Examples

end Unixfs.Props
