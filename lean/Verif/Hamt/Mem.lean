import Verif.Hamt.Local

/-!
# How many sub-shards are loaded, and how many blocks `Node` stores

The definitions in this file belong to proofs; they model no code.
-/

namespace Unixfs.Hamt
open Shard

mutual
/-- The number of shards in memory, values not counted. -/
def Shard.mem : Shard → Nat
  | .mk _ _ slots _ _ _ => 1 + slotsMem slots
/-- The same below a list of slots. -/
def slotsMem : List Slot → Nat
  | [] => 0
  | .child s :: ss => (if s.isValueNode then 0 else Shard.mem s) + slotsMem ss
  | .link _ :: ss => slotsMem ss
end

/-- The same below one slot. -/
def Slot.mem : Slot → Nat
  | .child s => if s.isValueNode then 0 else Shard.mem s
  | .link _ => 0

theorem mem_eq (s : Shard) : s.mem = 1 + slotsMem s.slots := by cases s; rw [Shard.mem]; rfl

theorem slotsMem_cons (sl : Slot) (ss : List Slot) : slotsMem (sl :: ss) = sl.mem + slotsMem ss := by
  cases sl <;> simp [slotsMem, Slot.mem]

theorem slotsMem_append : ∀ (a b : List Slot), slotsMem (a ++ b) = slotsMem a + slotsMem b
  | [], b => by simp [slotsMem]
  | sl :: a, b => by rw [List.cons_append, slotsMem_cons, slotsMem_cons, slotsMem_append a b]; omega

theorem slotsMem_set : ∀ (ss : List Slot) (i : Nat) (old sl : Slot), ss[i]? = some old → slotsMem (ss.set i sl) + old.mem = slotsMem ss + sl.mem
  | [], i, old, sl, h => by simp at h
  | a :: ss, 0, old, sl, h => by
    simp only [List.getElem?_cons_zero, Option.some.injEq] at h
    subst h
    rw [List.set_cons_zero, slotsMem_cons, slotsMem_cons]; omega
  | a :: ss, i + 1, old, sl, h => by
    rw [List.getElem?_cons_succ] at h
    rw [List.set_cons_succ, slotsMem_cons, slotsMem_cons]
    have := slotsMem_set ss i old sl h
    omega

theorem slotsMem_eraseIdx : ∀ (ss : List Slot) (i : Nat), slotsMem (ss.eraseIdx i) ≤ slotsMem ss
  | [], i => by simp
  | a :: ss, 0 => by rw [List.eraseIdx_cons_zero, slotsMem_cons]; omega
  | a :: ss, i + 1 => by
    rw [List.eraseIdx_cons_succ, slotsMem_cons, slotsMem_cons]
    have := slotsMem_eraseIdx ss i
    omega

theorem slotsMem_links (ls : List Link) : slotsMem (ls.map Slot.link) = 0 := by
  induction ls with
  | nil => rfl
  | cons l ls ih => rw [List.map_cons, slotsMem_cons, ih]; rfl

theorem mem_withSlots (s : Shard) (bf : Bytes) (ss : List Slot) : (s.withSlots bf ss).mem = 1 + slotsMem ss := by
  cases s; rw [mem_eq]; rfl

theorem mem_setChild {s c old : Shard} {i : Nat} (h : s.slots[i]? = some (.child old)) :
    (s.setChild c i).mem + (Slot.child old).mem = s.mem + (Slot.child c).mem := by
  rw [Shard.setChild, mem_withSlots, mem_eq s]
  have := slotsMem_set s.slots i _ (.child c) h
  omega

theorem slot_mem_le (c : Shard) : (Slot.child c).mem ≤ c.mem := by rw [Slot.mem]; split <;> omega
theorem slot_mem_value {c : Shard} (h : c.isValueNode = true) : (Slot.child c).mem = 0 := by rw [Slot.mem, if_pos h]
theorem slot_mem_node {c : Shard} (h : c.isValueNode = false) : (Slot.child c).mem = c.mem := by rw [Slot.mem, h]; rfl

theorem mem_load {x : Node} {s : Shard} (h : newHamtFromDag x = .ok s) : s.mem = 1 := by
  cases x with
  | raw => cases h
  | other => cases h
  | proto d ls b =>
    rw [newHamtFromDag] at h
    split at h
    · cases h
    · split at h
      · cases h
      · split at h
        · cases h
        · split at h
          · cases h
          · cases h; rw [mem_eq]; show 1 + slotsMem (ls.map Slot.link) = 1; rw [slotsMem_links]

theorem mem_make {z : Int} {key : Bytes} {v : Option Link} {s : Shard} (h : makeShard z key v = .ok s) : s.mem = 1 ∧ s.key = key ∧ s.val = v := by
  unfold makeShard at h
  split at h
  · cases h
  · split at h
    · cases h
    · split at h
      · cases h
      · cases h; exact ⟨rfl, rfl, rfl⟩

theorem mem_setBuilder (s : Shard) (b : Option Builder) : (s.setCidBuilder b).mem = s.mem := by cases s; rfl

theorem make_value {z : Int} {key : Bytes} {l : Link} {s : Shard} (hk : key ≠ []) (h : makeShard z key (some l) = .ok s) : s.isValueNode = true := by
  obtain ⟨_, h1, h2⟩ := mem_make h
  simp [Shard.isValueNode, h1, h2, hk]

/-- `get` loads at most one sub-shard. -/
theorem mem_get {net : Net} {s s1 c : Shard} {i t t1 : Nat} (h : s.get net i t = (.ok (c, s1), t1)) :
    s1.slots[i]? = some (.child c) ∧ s1.mem ≤ s.mem + 1 ∧ (c.isValueNode = true → s1.mem ≤ s.mem) := by
  have hset : ∀ {l : Link} {c : Shard}, s.slots[i]? = some (.link l) → (s.setChild c i).slots[i]? = some (.child c) ∧ (s.setChild c i).mem = s.mem + (Slot.child c).mem := by
    intro l c hl
    obtain ⟨hlt, _⟩ := List.getElem?_eq_some_iff.mp hl
    refine ⟨?_, ?_⟩
    · rw [Shard.setChild, slots_withSlots, List.getElem?_set_self hlt]
    · rw [Shard.setChild, mem_withSlots, mem_eq s]
      have := slotsMem_set s.slots i _ (.child c) hl
      have h0 : (Slot.link l).mem = 0 := rfl
      omega
  rw [Shard.get] at h
  split at h
  · cases h
  · rename_i c' hc
    simp only [Prod.mk.injEq, Except.ok.injEq] at h
    obtain ⟨⟨rfl, rfl⟩, rfl⟩ := h
    exact ⟨hc, by omega, fun _ => Nat.le_refl _⟩
  · rename_i l hl
    split at h
    · cases h
    · split at h
      · split at h
        · cases h
        · rename_i c' hc
          simp only [Prod.mk.injEq, Except.ok.injEq] at h
          obtain ⟨⟨rfl, rfl⟩, rfl⟩ := h
          obtain ⟨h1, h2⟩ := hset (c := c') hl
          refine ⟨h1, ?_, fun hv => ?_⟩
          · have := slot_mem_le c'
            rw [mem_load hc] at this
            omega
          · rw [h2, slot_mem_value hv]; exact Nat.le_refl _
      · cases h
    · rename_i hct
      split at h
      · cases h
      · rename_i c' hc
        simp only [Prod.mk.injEq, Except.ok.injEq] at h
        obtain ⟨⟨rfl, rfl⟩, rfl⟩ := h
        obtain ⟨h1, h2⟩ := hset (c := c') hl
        rw [slot_mem_value (make_value (valueLink_key hct) hc)] at h2
        exact ⟨h1, by omega, fun _ => by omega⟩

theorem mem_insert {s s' : Shard} {key : Bytes} (hkey : key ≠ []) {v : Option Link} {i : Nat} (h : s.insert key v i = .ok s') : s'.mem = s.mem := by
  unfold Shard.insert at h
  split at h
  · cases h
  · split at h
    · cases h
    · rename_i sd hsd
      dsimp only at h
      split at h
      · cases h
      · cases h
        rw [mem_withSlots, slotsMem_append, slotsMem_cons, slot_mem_value (make_value hkey hsd), Nat.zero_add, ← slotsMem_append, List.take_append_drop, mem_eq s]

theorem mem_rm {s s' : Shard} {i : Nat} (h : s.rm i = .ok s') : s'.mem ≤ s.mem := by
  unfold Shard.rm at h
  dsimp only at h
  split at h
  · cases h
  · cases h
    rw [mem_withSlots, mem_eq s]
    have := slotsMem_eraseIdx s.slots (s.sliceIndex i)
    omega

theorem mem_collapse {s c : Shard} {idx i : Nat} (hc : s.slots[i]? = some (.child c)) (old : Option Link) : (s.collapse idx i c old).2.mem ≤ s.mem := by
  unfold Shard.collapse
  split
  · split
    · exact Nat.le_refl _
    · rename_i h; exact mem_rm h
  · rename_i sc _
    dsimp only
    split
    · rename_i hv
      have := mem_setChild (c := sc) hc
      rw [slot_mem_value hv] at this
      omega
    · exact Nat.le_refl _
  · rename_i l _
    split
    · exact Nat.le_refl _
    · dsimp only
      rw [Shard.setLink, mem_withSlots, mem_eq s]
      have := slotsMem_set s.slots i _ (.link l) hc
      have h0 : (Slot.link l).mem = 0 := rfl
      omega
    · exact Nat.le_refl _
  · exact Nat.le_refl _

section
variable {H : Hash} {n : Nat}

/-- The first entry of an empty shard. -/
theorem swap_empty_mem {net : Net} (f : Nat) (s : Shard) (d : Nat) (key : Bytes) (v : Option Link) (t : Nat) (hbf : s.bf = bfNew s.size) (hkey : key ≠ []) :
    (Shard.swapValue H net f s d key v t).2.1.mem = s.mem := by
  cases f with
  | zero => rfl
  | succ f =>
    rw [Shard.swapValue]
    split
    · rfl
    · rename_i i d' hn
      rw [if_pos (by rw [hbf, bfBit_new])]
      split
      · rfl
      · rename_i h; exact mem_insert hkey h

theorem swap_mem {net : Net} (hH : ∀ k, (H k).length = 8) : ∀ (f : Nat) (s : Shard) (d : Nat) (key : Bytes) (v : Option Link) (t : Nat), Sh n s → key ≠ [] →
    (Shard.swapValue H net f s d key v t).2.1.mem ≤ s.mem + (64 - d) / s.lg
  | 0, s, d, key, v, t, hb, hkey => by rw [Shard.swapValue]; exact Nat.le_add_right _ _
  | f + 1, s, d, key, v, t, hb, hkey => by
    rw [Shard.swapValue]
    split
    · simp
    · rename_i i d' hn
      obtain ⟨hi, hd⟩ := nextBits_shard hb hn
      have hst := div_step (lg_spec hb.vsize).1 (nextBits_fits hn)
      rw [hH] at hst
      simp only [show 8 * 8 = 64 from rfl] at hst
      generalize hQ : (64 - d) / s.lg = Q at hst ⊢
      generalize hQ' : (64 - (d + s.lg)) / s.lg = Q' at hst
      split
      · split
        · exact Nat.le_add_right _ _
        · rename_i h; dsimp only; rw [mem_insert hkey h]; omega
      · rename_i hbit
        have hbit : bfBit s.bf i = true := by simpa using hbit
        dsimp only
        split
        · exact Nat.le_add_right _ _
        · rename_i child s1 t1 hg
          obtain ⟨g1, g2, g3, g4, g5, g6, g7, g8⟩ := get_less (d := d + s.lg) (H := H) hb hi hbit hg
          obtain ⟨m1, m2, m3⟩ := mem_get hg
          split
          · rename_i hv
            have m3 := m3 hv
            split
            · split
              · split
                · dsimp only; omega
                · rename_i h; have := mem_rm h; dsimp only; omega
              · rename_i v
                have h1 := mem_setChild (c := child.withVal v) m1
                have hv' : (child.withVal v).isValueNode = true := by
                  have := isValue_key hv
                  cases child
                  simp only [Shard.key] at this
                  simp [Shard.isValueNode, Shard.withVal, Shard.key, Shard.val, this]
                rw [slot_mem_value hv'] at h1
                dsimp only; omega
            · split
              · dsimp only; omega
              · rename_i v
                split
                · dsimp only; omega
                · rename_i c0 hc0
                  obtain ⟨e1, e2⟩ := sh_new (n := n) hc0 (by rw [g1.size])
                  have e1' := sh_builder e1 s1.builder
                  have e2' : (c0.setCidBuilder s1.builder).bf = bfNew (c0.setCidBuilder s1.builder).size := by cases c0; exact e2
                  obtain ⟨_, a2⟩ := swap_local (H := H) (net := net) (net' := net) f _ d' key (some v) t1 e1' hkey (fun _ _ _ => rfl)
                  have a3 := swap_empty_mem (H := H) (net := net) f (c0.setCidBuilder s1.builder) d' key (some v) t1 e2' hkey
                  rw [mem_setBuilder, (mem_make hc0).1] at a3
                  split
                  · dsimp only; omega
                  · rename_i c1 t2 hc1
                    rw [hc1] at a2 a3
                    have hlg : c1.lg = s.lg := by rw [Shard.lg, Shard.lg, a2.ok.size, hb.size]
                    have b1 := swap_mem (net := net) hH f c1 d' child.key child.val t2 a2.ok (isValue_key hv)
                    rw [hlg, hd, hQ'] at b1
                    split
                    · dsimp only; omega
                    · rename_i c2 t3 hc2
                      rw [hd] at hc2
                      rw [hc2] at b1
                      have h1 := mem_setChild (c := c2) m1
                      have h2 := slot_mem_le c2
                      dsimp only at a3 b1 ⊢
                      omega
          · rename_i hv
            have hv : child.isValueNode = false := by simpa using hv
            have hcs : Sh n child := g6.sh hb.valid hv
            have hlg : child.lg = s.lg := by rw [Shard.lg, Shard.lg, hcs.size, hb.size]
            have a1 := swap_mem (net := net) hH f child d' key v t1 hcs hkey
            rw [hlg, hd, hQ'] at a1
            have hset : ∀ child' : Shard, child'.mem ≤ child.mem + Q' → (s1.setChild child' (s.sliceIndex i)).mem ≤ s.mem + Q := by
              intro child' h
              have h1 := mem_setChild (c := child') m1
              rw [slot_mem_node hv] at h1
              have h2 := slot_mem_le child'
              omega
            split
            · rename_i child' t2 hc'; rw [hd] at hc'; rw [hc'] at a1; exact hset _ a1
            · rename_i child' t2 hc'
              rw [hd] at hc'
              rw [hc'] at a1
              split
              · exact hset _ a1
              · have hsl : (s1.setChild child' (s.sliceIndex i)).slots[s.sliceIndex i]? = some (.child child') := by
                  obtain ⟨hlt, _⟩ := List.getElem?_eq_some_iff.mp m1
                  rw [Shard.setChild, slots_withSlots, List.getElem?_set_self hlt]
                exact le_trans (mem_collapse hsl _) (hset _ a1)

theorem getValue_mem {net : Net} (hH : ∀ k, (H k).length = 8) : ∀ (f : Nat) (s : Shard) (d : Nat) (key : Bytes) (t : Nat), Sh n s →
    (Shard.getValue H net f s d key t).2.1.mem ≤ s.mem + (64 - d) / s.lg
  | 0, s, d, key, t, hb => by rw [Shard.getValue]; exact Nat.le_add_right _ _
  | f + 1, s, d, key, t, hb => by
    rw [Shard.getValue]
    split
    · simp
    · rename_i i d' hn
      obtain ⟨hi, hd⟩ := nextBits_shard hb hn
      have hst := div_step (lg_spec hb.vsize).1 (nextBits_fits hn)
      rw [hH] at hst
      simp only [show 8 * 8 = 64 from rfl] at hst
      generalize hQ : (64 - d) / s.lg = Q at hst ⊢
      generalize hQ' : (64 - (d + s.lg)) / s.lg = Q' at hst
      split
      · simp
      · rename_i hbit
        have hbit : bfBit s.bf i = true := by simpa using hbit
        dsimp only
        split
        · exact Nat.le_add_right _ _
        · rename_i child s1 t1 hg
          obtain ⟨g1, g2, g3, g4, g5, g6, g7, g8⟩ := get_less (d := d + s.lg) (H := H) hb hi hbit hg
          obtain ⟨m1, m2, m3⟩ := mem_get hg
          split
          · split <;> (dsimp only; omega)
          · rename_i hv
            have hv : child.isValueNode = false := by simpa using hv
            have hcs : Sh n child := g6.sh hb.valid hv
            have hlg : child.lg = s.lg := by rw [Shard.lg, Shard.lg, hcs.size, hb.size]
            have a1 := getValue_mem (net := net) hH f child d' key t1 hcs
            rw [hlg, hd, hQ'] at a1
            dsimp only
            rw [hd]
            generalize getValue H net f child (d + s.lg) key t1 = o at a1
            obtain ⟨r, c', t2⟩ := o
            have h1 := mem_setChild (c := c') m1
            rw [slot_mem_node hv] at h1
            have h2 := slot_mem_le c'
            dsimp only at a1 ⊢
            omega

theorem exec_mem {net : Net} {ref : Nat → Bool} {K : Bytes → Prop} {c : Cfg} {op : Op} (hH : ∀ k, (H k).length = 8) (hs : Sh n c.shard) (ho : About K op)
    (hne : op.target ≠ some []) : (exec H net ref op c).2.shard.mem ≤ c.shard.mem + 64 / c.shard.lg := by
  cases ho with
  | set h =>
    rename_i k nd
    have hk : k ≠ [] := fun h => hne (by rw [h]; rfl)
    rw [exec, Shard.swap]
    by_cases hr : ref c.st.length = true
    · rw [if_pos hr]; exact Nat.le_add_right _ _
    · rw [if_neg hr]
      have h2 := swap_mem (net := net) hH (Shard.fuel H k) c.shard 0 k (some (makeLink (linkNamePrefix c.shard.size 0 ++ k) nd)) c.t hs hk
      generalize Shard.swapValue H net _ _ _ _ _ _ = o at h2
      obtain ⟨r, s', t'⟩ := o
      cases r <;> exact h2
  | swap h =>
    rename_i k nd
    have hk : k ≠ [] := fun h => hne (by rw [h]; rfl)
    rw [exec, Shard.swap]
    by_cases hr : ref c.st.length = true
    · rw [if_pos hr]; exact Nat.le_add_right _ _
    · rw [if_neg hr]
      have h2 := swap_mem (net := net) hH (Shard.fuel H k) c.shard 0 k (some (makeLink (linkNamePrefix c.shard.size 0 ++ k) nd)) c.t hs hk
      generalize Shard.swapValue H net _ _ _ _ _ _ = o at h2
      obtain ⟨r, s', t'⟩ := o
      cases r <;> exact h2
  | setLink h =>
    rename_i k l
    have hk : k ≠ [] := fun h => hne (by rw [h]; rfl)
    rw [exec, Shard.setLinkOp]
    have h2 := swap_mem (net := net) hH (Shard.fuel H k) c.shard 0 k (some (Link.rename l (linkNamePrefix c.shard.size 0 ++ k))) c.t hs hk
    generalize Shard.swapValue H net _ _ _ _ _ _ = o at h2
    obtain ⟨r, s', t'⟩ := o
    cases r <;> exact h2
  | remove h =>
    rename_i k
    have hk : k ≠ [] := fun h => hne (by rw [h]; rfl)
    rw [exec, Shard.take]
    have h2 := swap_mem (net := net) hH (Shard.fuel H k) c.shard 0 k none c.t hs hk
    generalize Shard.swapValue H net _ _ _ _ _ _ = o at h2
    obtain ⟨r, s', t'⟩ := o
    cases r <;> exact h2
  | take h =>
    rename_i k
    have hk : k ≠ [] := fun h => hne (by rw [h]; rfl)
    rw [exec, Shard.take]
    have h2 := swap_mem (net := net) hH (Shard.fuel H k) c.shard 0 k none c.t hs hk
    generalize Shard.swapValue H net _ _ _ _ _ _ = o at h2
    obtain ⟨r, s', t'⟩ := o
    cases r <;> exact h2
  | find h =>
    rename_i k
    rw [exec, Shard.find]
    have h2 := getValue_mem (net := net) hH (Shard.fuel H k) c.shard 0 k c.t hs
    generalize Shard.getValue H net _ _ _ _ _ = o at h2
    obtain ⟨r, s', t'⟩ := o
    rcases r with _ | _ | _ <;> exact h2
  | node =>
    rw [exec]
    split <;> exact Nat.le_add_right _ _
  | setCidBuilder =>
    show (c.shard.setCidBuilder _).mem ≤ _
    rw [mem_setBuilder]; exact Nat.le_add_right _ _

theorem execAll_mem {net : Net} {ref : Nat → Bool} {K : Bytes → Prop} (hH : ∀ k, (H k).length = 8) : ∀ (ops : List Op) (c : Cfg), Sh n c.shard →
    (∀ op ∈ ops, About K op) → NoEmptyName ops → (execAll H net ref ops c).shard.mem ≤ c.shard.mem + ops.length * (64 / c.shard.lg)
  | [], c, hs, _, _ => Nat.le_add_right _ _
  | op :: ops, c, hs, ho, hne => by
    obtain ⟨_, h2⟩ := exec_local (H := H) (net := net) (net' := net) (ref := ref) hs (ho op (by simp)) (hne op (by simp)) (fun _ _ _ _ _ => rfl)
    have h1 := exec_mem (net := net) (ref := ref) hH hs (ho op (by simp)) (hne op (by simp))
    have h3 := execAll_mem (net := net) (ref := ref) hH ops (exec H net ref op c).2 h2.ok (fun o h => ho o (by simp [h])) (fun o h => hne o (by simp [h]))
    have hlg : (exec H net ref op c).2.shard.lg = c.shard.lg := by rw [Shard.lg, Shard.lg, h2.size]
    rw [hlg] at h3
    rw [execAll, List.length_cons, Nat.add_mul, Nat.one_mul]
    omega

end

mutual
/-- `Node` adds every shard in memory twice, the root once. -/
theorem toNode_adds (ref : Nat → Bool) : ∀ (s : Shard) (st : List Node), ∃ new, (Shard.toNode ref s st).2 = new ++ st ∧ new.length + 1 ≤ 2 * s.mem
  | .mk size bf slots b k v, st => by
    obtain ⟨new, h1, h2⟩ := linksOf_adds ref size slots ((List.range size).filter (fun i => bfBit bf i)) st
    rw [Shard.toNode, Shard.mem]
    split
    · rename_i h; rw [h] at h1; exact ⟨new, h1, by omega⟩
    · rename_i ls st' h
      rw [h] at h1
      split
      · exact ⟨new, h1, by omega⟩
      · rename_i d _
        split
        · exact ⟨new, h1, by omega⟩
        · dsimp only at h1 ⊢
          exact ⟨.proto d ls (pbBuilder b) :: new, by rw [h1]; rfl, by rw [List.length_cons]; omega⟩
theorem linksOf_adds (ref : Nat → Bool) (size : Nat) : ∀ (ss : List Slot) (is : List Nat) (st : List Node),
    ∃ new, (linksOf ref size ss is st).2 = new ++ st ∧ new.length ≤ 2 * slotsMem ss
  | ss, [], st => by cases ss with | nil => exact ⟨[], rfl, by simp⟩ | cons a ss => cases a <;> exact ⟨[], by rw [linksOf]; rfl, by simp⟩
  | [], _ :: _, st => ⟨[], by rw [linksOf]; rfl, by simp⟩
  | .child s :: ss, i :: is, st => by
    rw [linksOf, slotsMem]
    by_cases hv : s.isValueNode = true
    · rw [if_pos hv, if_pos hv]
      cases s.val with
      | none => exact ⟨[], rfl, by simp⟩
      | some l =>
        dsimp only
        obtain ⟨new, h1, h2⟩ := linksOf_adds ref size ss is st
        split
        · rename_i h; rw [h] at h1; exact ⟨new, h1, by omega⟩
        · rename_i h; rw [h] at h1; exact ⟨new, h1, by omega⟩
    · rw [if_neg hv, if_neg hv]
      obtain ⟨new, h1, h2⟩ := toNode_adds ref s st
      cases ho : Shard.toNode ref s st with
      | mk r st' =>
      rw [ho] at h1
      dsimp only at h1
      cases r with
      | error e => exact ⟨new, h1, by omega⟩
      | ok nd =>
        dsimp only
        by_cases hr : ref st'.length = true
        · rw [if_pos hr]; exact ⟨new, h1, by omega⟩
        · rw [if_neg hr]
          dsimp only
          obtain ⟨new', h3, h4⟩ := linksOf_adds ref size ss is (nd :: st')
          have hh : (linksOf ref size ss is (nd :: st')).2 = (new' ++ nd :: new) ++ st := by rw [h3, h1]; simp
          split
          · rename_i h; rw [h] at hh; exact ⟨_, hh, by simp; omega⟩
          · rename_i h; rw [h] at hh; exact ⟨_, hh, by simp; omega⟩
  | .link l :: ss, i :: is, st => by
    rw [linksOf, slotsMem]
    split
    · exact ⟨[], rfl, by simp⟩
    · obtain ⟨new, h1, h2⟩ := linksOf_adds ref size ss is st
      split
      · rename_i h; rw [h] at h1; exact ⟨new, h1, h2⟩
      · rename_i h; rw [h] at h1; exact ⟨new, h1, h2⟩
end

end Unixfs.Hamt
