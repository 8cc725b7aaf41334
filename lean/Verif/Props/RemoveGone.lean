import Verif.Props.RemoveOthers

/-!
# C127: a name that is held once is gone when it is removed, in sharded directories of one width

The definitions in this file belong to proofs; they model no code.
-/

namespace Unixfs.Props
open Unixfs.Hamt hiding exec execAll results NoEmptyName lastWrite Cfg
open Unixfs.Dir Unixfs.File Unixfs.Spec

variable {net : Net} {H : Hash}

/-- The child in a slot of a shard of the given width, with all blocks. -/
def kid (size : Nat) (sl : Slot) : Option Shard := childAt (.mk size [] [sl] none [] none) 0

theorem childAt_kid {s : Shard} {i : Nat} : childAt s i = s.slots[i]?.bind (kid s.size) := by
  cases h : s.slots[i]? with
  | none => unfold childAt Shard.get; rw [h]; rfl
  | some sl =>
    show childAt s i = kid s.size sl
    unfold kid
    refine childAt_slot rfl ?_
    rw [h]; rfl

theorem kid_value {z : Nat} {l : Link} {e : Shard} (hlt : childLinkType z l = .ok .shardValueLink) (hm : kid z (.link l) = some e) : e.isValueNode = true := by
  unfold kid childAt Shard.get at hm
  dsimp only [Shard.slots, Shard.size, List.getElem?_cons_zero] at hm
  rw [hlt] at hm
  dsimp only at hm
  cases hv : makeShardValue z l with
  | error _ => rw [hv] at hm; cases hm
  | ok e' => rw [hv] at hm; cases hm; exact (value_child hlt hv).1

/-- How often a name is held in a shard and those below, to some depth. -/
def timesHeld (key : Bytes) : Nat → Shard → Nat
  | 0, _ => 0
  | f + 1, s => (s.slots.map fun sl => match kid s.size sl with | none => 0 | some c => if c.isValueNode then (if c.key = key then 1 else 0) else timesHeld key f c).sum

/-- What a child adds to that number. -/
def adds (key : Bytes) (f : Nat) (c : Shard) : Nat := if c.isValueNode then (if c.key = key then 1 else 0) else timesHeld key f c

/-- What a slot adds. -/
def slotAdds (key : Bytes) (f size : Nat) (sl : Slot) : Nat := match kid size sl with | none => 0 | some c => adds key f c

theorem timesHeld_eq (key : Bytes) (f : Nat) (s : Shard) : timesHeld key (f + 1) s = (s.slots.map (slotAdds key f s.size)).sum := rfl

theorem kid_child (size : Nat) (c : Shard) : kid size (.child c) = some c := rfl

theorem sum_erase : ∀ (l : List Nat) (i a : Nat), l[i]? = some a → (l.eraseIdx i).sum + a = l.sum
  | [], i, a, h => by simp at h
  | b :: l, 0, a, h => by simp at h; subst h; simp; omega
  | b :: l, i + 1, a, h => by
    have := sum_erase l i a (by simpa using h)
    simp only [List.eraseIdx_cons_succ, List.sum_cons]
    omega

theorem sum_set' : ∀ (l : List Nat) (i a b : Nat), l[i]? = some a → (l.set i b).sum + a = l.sum + b
  | [], i, a, b, h => by simp at h
  | c :: l, 0, a, b, h => by simp at h; subst h; simp; omega
  | c :: l, i + 1, a, b, h => by
    have := sum_set' l i a b (by simpa using h)
    simp only [List.set_cons_succ, List.sum_cons]
    omega

/-- What is found is held. -/
theorem found_held : ∀ (f : Nat) (s : Shard) (n : Nat) (key : Bytes) (u : Nat) (x : Node), tgt (Shard.getValue H allNet f s n key u).1 = .ok (some x) → 1 ≤ timesHeld key f s
  | 0, s, n, key, u, x, h => by cases h
  | f + 1, s, n, key, u, x, h => by
    obtain ⟨j, nj, d, _, _, hd, hcase⟩ := getValue_step h
    have ha : 1 ≤ adds key f d := by
      unfold adds
      rcases hcase with ⟨a, b, _⟩ | ⟨a, u', b⟩
      · rw [if_pos a, if_pos b]
      · rw [if_neg (by simp [a])]; exact found_held f d _ _ _ _ b
    rw [timesHeld_eq]
    rw [childAt_kid] at hd
    cases hs : s.slots[s.sliceIndex j]? with
    | none => rw [hs] at hd; cases hd
    | some sl =>
      rw [hs] at hd
      have hk : kid s.size sl = some d := hd
      have h1 : (s.slots.map (slotAdds key f s.size))[s.sliceIndex j]? = some (adds key f d) := by
        rw [List.getElem?_map, hs]
        simp [slotAdds, hk]
      have := sum_erase _ _ _ h1
      omega

/-- Taking a name out takes it out once. -/
theorem taken_once {w : Nat} : ∀ (f : Nat) (s s' : Shard) (n : Nat) (key : Bytes) (t t1 : Nat) (o : Option Link), OneWidth w f s →
    Shard.swapValue H net f s n key none t = (.ok o, s', t1) → timesHeld key f s' + 1 = timesHeld key f s
  | 0, s, s', n, key, t, t1, o, ho, h => by cases h
  | f + 1, s, s', n, key, t, t1, o, ho, h => by
    have hsz := (take_keep h).2.2
    unfold Shard.swapValue at h
    cases hx : nextBits (H key) n s.lg with
    | error e => rw [hx] at h; cases h
    | ok y =>
      obtain ⟨idx, n'⟩ := y
      rw [hx] at h
      dsimp only at h
      split at h
      · cases h
      · rcases hg : s.get net (s.sliceIndex idx) t with ⟨_ | ⟨c, s1⟩, ta⟩
        · rw [hg] at h; cases h
        rw [hg] at h
        dsimp only at h
        obtain ⟨k1, k2, k3, k4, k5, k6⟩ := keep_get hg
        have hcc : childAt s (s.sliceIndex idx) = some c := by
          have e1 : (s.get net (s.sliceIndex idx) t).1 = .ok (c, s1) := by rw [hg]
          have e2 := (get_net (net := net) (t := t) s (s.sliceIndex idx)).resolve_left (by rw [e1]; exact fun h => by cases h)
          unfold childAt
          rw [← e2, e1]
        have wi : (s.slots.map (slotAdds key f s.size))[s.sliceIndex idx]? = some (adds key f c) := by
          have hk := hcc
          rw [childAt_kid] at hk
          rw [List.getElem?_map]
          cases hs : s.slots[s.sliceIndex idx]? with
          | none => rw [hs] at hk; cases hk
          | some sl =>
            rw [hs] at hk
            have hk : kid s.size sl = some c := hk
            simp [slotAdds, hk]
        have w1 : s1.slots.map (slotAdds key f s.size) = s.slots.map (slotAdds key f s.size) := by
          rcases get_state hg with rfl | rfl
          · rfl
          · rw [(setChild_slots _ _ _).1, List.map_set]
            apply List.ext_getElem?
            intro p
            by_cases hp : s.sliceIndex idx = p
            · subst hp
              rw [wi, List.getElem?_set_self (by rw [List.length_map]; exact k6)]
              simp [slotAdds, kid_child]
            · rw [List.getElem?_set_ne hp]
        rw [timesHeld_eq, timesHeld_eq, hsz]
        split at h
        · next hv =>
          split at h
          · next hkk =>
            split at h
            · cases h
            · next s2 hr =>
              have hs2 : s2 = s' := by cases h; rfl
              subst hs2
              obtain ⟨_, _, _, _, r5⟩ := rm_keep hr
              have e0 : s1.sliceIndex idx = s.sliceIndex idx := by
                show bfOnesBefore s1.bf idx = bfOnesBefore s.bf idx
                rw [k4]
              rw [r5, e0, ← List.eraseIdx_map, w1]
              have := sum_erase _ _ _ wi
              have ha : adds key f c = 1 := by unfold adds; rw [if_pos hv, if_pos hkk]
              omega
          · cases h
        · next hv =>
          rcases h1 : Shard.swapValue H net f c n' key none ta with ⟨_ | old, c1, t2⟩
          · rw [h1] at h; cases h
          rw [h1] at h
          dsimp only at h
          have ka := take_keep h1
          have hvc : c.isValueNode = false := by simpa using hv
          have hv1 : c1.isValueNode = false := by unfold Shard.isValueNode at hvc ⊢; rw [ka.1, ka.2.1]; exact hvc
          have hoc : OneWidth w f c := ho.2 _ _ hcc hvc
          have hw1 : c1.size = s.size := by rw [ka.2.2, hoc.size, ho.1]
          have ih := taken_once f _ _ _ _ _ _ _ hoc h1
          have ac : adds key f c = timesHeld key f c := by unfold adds; rw [if_neg (by simp [hvc])]
          have ac1 : adds key f c1 = timesHeld key f c1 := by unfold adds; rw [if_neg (by simp [hv1])]
          generalize hq : s1.setChild c1 (s.sliceIndex idx) = q at h
          have qw : q.slots.map (slotAdds key f s.size) = (s.slots.map (slotAdds key f s.size)).set (s.sliceIndex idx) (timesHeld key f c1) := by
            rw [← hq, (setChild_slots _ _ _).1, List.map_set, w1, ← ac1]
            rfl
          have qx : ∀ b, ((s.slots.map (slotAdds key f s.size)).set (s.sliceIndex idx) b).sum + timesHeld key f c = (s.slots.map (slotAdds key f s.size)).sum + b := fun b => by
            rw [← ac]; exact sum_set' _ _ _ b wi
          have fin : s'.slots.map (slotAdds key f s.size) = (s.slots.map (slotAdds key f s.size)).set (s.sliceIndex idx) (timesHeld key f c1) →
              (s'.slots.map (slotAdds key f s.size)).sum + 1 = (s.slots.map (slotAdds key f s.size)).sum := by
            intro e
            rw [e]
            have := qx (timesHeld key f c1)
            omega
          obtain ⟨f', rfl⟩ : ∃ f', f = f' + 1 := by
            cases f with
            | zero => cases h1
            | succ f' => exact ⟨f', rfl⟩
          have one : ∀ sl, c1.slots = [sl] → timesHeld key (f' + 1) c1 = slotAdds key f' s.size sl := by
            intro sl e
            rw [timesHeld_eq, e, hw1]
            simp
          rcases hc : q.collapse idx (s.sliceIndex idx) c1 old with ⟨r, s2⟩
          rw [hc] at h
          have hs2 : s2 = s' := by injection h with _ h; injection h
          have hr : r = .ok o := by injection h
          subst hs2; subst hr
          unfold Shard.collapse at hc
          split at hc
          · next h0 =>
            split at hc
            · cases hc
            · next s3 hr =>
              have : s3 = s2 := (Prod.mk.inj hc).2
              subst this
              obtain ⟨_, _, _, _, r5⟩ := rm_keep hr
              have e0 : q.sliceIndex idx = s.sliceIndex idx := by
                show bfOnesBefore q.bf idx = bfOnesBefore s.bf idx
                rw [← hq, (setChild_keep _ _ _).1, k4]
              have hz : timesHeld key (f' + 1) c1 = 0 := by rw [timesHeld_eq, h0]; rfl
              rw [r5, e0, ← List.eraseIdx_map, qw]
              have := sum_erase ((s.slots.map (slotAdds key (f' + 1) s.size)).set (s.sliceIndex idx) (timesHeld key (f' + 1) c1)) (s.sliceIndex idx) (timesHeld key (f' + 1) c1)
                (List.getElem?_set_self (by rw [List.length_map]; exact k6))
              have := qx (timesHeld key (f' + 1) c1)
              omega
          · next sc h0 =>
            have hs2 := (Prod.mk.inj hc).2
            split at hs2
            · next hscv =>
              refine fin ?_
              rw [← hs2, (setChild_slots _ _ _).1, List.map_set, qw, List.set_set]
              congr 1
              rw [one _ h0]
              show adds key (f' + 1) sc = adds key f' sc
              unfold adds
              rw [if_pos hscv, if_pos hscv]
            · exact fin (by rw [← hs2]; exact qw)
          · next l h0 =>
            split at hc
            · cases hc
            · next hlt =>
              have hs2 := (Prod.mk.inj hc).2
              refine fin ?_
              rw [← hs2, (setLink_slots _ _ _).1, List.map_set, qw, List.set_set]
              congr 1
              rw [one _ h0]
              unfold slotAdds
              cases hm : kid s.size (.link l) with
              | none => rfl
              | some e =>
                have hev : e.isValueNode = true := kid_value (by rw [← hw1]; exact hlt) hm
                dsimp only
                unfold adds
                rw [if_pos hev, if_pos hev]
            · exact fin (by rw [← (Prod.mk.inj hc).2]; exact qw)
          · exact fin (by rw [← (Prod.mk.inj hc).2]; exact qw)

/-- C127 for the sharded directories whose shards are all of one width and hold the name once, as deep as a lookup goes, and whatever else is wrong with them (`HAMTShardingSize` 0, the default): after
`RemoveChild` without an error the name is not found. A name that is held twice may be found again: `C127_found_again`. -/
theorem C127_removed_is_gone_sharded {env env' : Env} {c c1 c2 : Dir.Cfg} {y : HamtDir} {w : Nat} {ops : List DOp} {name : Bytes} (ht : c.thr = 0) (ho : ∀ op ∈ ops, Looks op) (hH : env'.H = env.H)
    (hh : c.dir = .hamt y) (hw1 : OneWidth w (Shard.fuel env.H name) y.shard) (h1 : timesHeld name (Shard.fuel env.H name) y.shard ≤ 1) (ha : Dir.removeChild env c name = (.ok (), c1)) (h2 : c2.dir = c1.dir)
    (x : Node) : (Dir.find env' (execAll env' ops c2) name).1 ≠ .ok x := by
  intro hf
  rcases find_base (env := env') (name := name) (asked_same (env := env') ops c2 (.refl _) ho) (env0 := { env' with net := allNet }) rfl rfl (c0 := c2) rfl with h | h
  · rw [h] at hf; cases hf
  · rw [h] at hf
    unfold Dir.removeChild at ha
    unfold Dir.find at hf
    rw [h2] at hf
    rw [hh] at ha
    dsimp only at ha
    rw [ht, show y.needsToSwitchToBasicDir env 0 name none c.t c.k = (.ok false, y, c.t, c.k) from rfl] at ha
    dsimp only at ha
    unfold HamtDir.removeChild Shard.take at ha
    rcases hx : Shard.swapValue env.H env.net (Shard.fuel env.H name) y.shard 0 name none c.t with ⟨_ | o, s', t'⟩
    · rw [hx] at ha; cases ha
    rw [hx] at ha
    dsimp only at ha
    injection ha with _ ha
    rw [← ha] at hf
    have once := taken_once _ _ _ _ _ _ _ _ hw1 hx
    unfold HamtDir.find Shard.find at hf
    dsimp only at hf
    rw [hH] at hf
    have key := found_held (H := env.H) (Shard.fuel env.H name) s' 0 name c2.t x
    rcases hg : Shard.getValue env.H allNet (Shard.fuel env.H name) s' 0 name c2.t with ⟨r, s4, t4⟩
    rw [hg] at hf key
    match r, hf, key with
    | .ok (some l), hf, key =>
      dsimp only at hf
      split at hf
      · injection hf with hf
        have := key (by rw [← hf]; rfl)
        omega
      · cases hf

section Examples

theorem exDeep_once : (match newDirectoryFromNode exDeep with
    | .ok d => (match Dir.removeChild (calmEnv H0) (start d 0) [0x62] with
      | (.ok (), _) => (match d with
        | .hamt h => decide ((oneWidth 8 (Shard.fuel H0 [0x62]) h.shard, timesHeld [0x62] (Shard.fuel H0 [0x62]) h.shard) = (true, 1))
        | _ => false)
      | _ => false)
    | _ => false) = true := by decide +kernel

/-- The hypotheses are met by the directory of three shards. -/
example : ∃ d c1, newDirectoryFromNode exDeep = .ok d ∧ Dir.removeChild (calmEnv H0) (start d 0) [0x62] = (.ok (), c1) ∧ (Dir.find lateEnv c1 [0x62]).1 ≠ .ok (exNd 2) := by
  have h := exDeep_once
  split at h
  · next d hd =>
    split at h
    · next c1 ha =>
      split at h
      · next y =>
        have h := of_decide_eq_true h
        simp only [Prod.mk.injEq] at h
        obtain ⟨h1, h2⟩ := h
        exact ⟨_, c1, hd, ha, C127_removed_is_gone_sharded (env := calmEnv H0) (env' := lateEnv) (c := start (.hamt y) 0) (name := [0x62]) (ops := []) rfl (fun _ h => by cases h) rfl rfl
          (oneWidth_sound h1) (Nat.le_of_eq h2) ha rfl _⟩
      · cases h
    · cases h
  · cases h

end Examples

end Unixfs.Props
