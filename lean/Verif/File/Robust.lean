import Verif.File.Resolve
import Verif.Hamt.PropLemmas
import Verif.Spec.Walk

/-!
# Reading shards from arbitrary nodes

Nothing is assumed about the nodes: the bitfield, the links, their names and the width may be
anything.

The definitions in this file belong to proofs; they model no code.
-/

namespace Unixfs

/-- Neither a panic nor an endless loop. -/
def Err.Sane (e : Err) : Prop := e ≠ .panic ∧ e ≠ .outOfFuel

namespace Pb

theorem skipField_sane {w : Nat} {b : Bytes} {e : Err} (h : skipField w b = .error e) : e.Sane := by
  unfold skipField at h
  repeat' split at h
  all_goals first | cases h; exact ⟨by simp, by simp⟩ | cases h

theorem Data.step_sane {m : Data} {x : Nat} {b : Bytes} {e : Err} (h : m.step x b = .error e) : e.Sane := by
  have nv : ∀ (g : Nat → Data), ((do let (v, r) ← needVarint b; return (g v, r)) : Except Err (Data × Bytes)) = .error e → e.Sane := by
    intro g hg
    rw [needVarint] at hg
    cases hd : decVarint b with
    | none => rw [hd] at hg; simp only [bind, Except.bind, Except.error.injEq] at hg; rw [← hg]; exact ⟨by simp, by simp⟩
    | some q => rw [hd] at hg; simp [bind, Except.bind, pure, Except.pure] at hg
  unfold Data.step at h
  simp only at h
  split at h
  · cases h; exact ⟨by simp, by simp⟩
  split at h
  · exact nv (fun v => { m with typ := some (UInt32.ofNat v) }) h
  split at h
  · split at h
    · cases h; exact ⟨by simp, by simp⟩
    · cases h
  split at h
  · exact nv (fun v => { m with filesize := some (UInt64.ofNat v) }) h
  split at h
  · exact nv (fun v => { m with blocksizes := m.blocksizes ++ [UInt64.ofNat v] }) h
  split at h
  · split at h
    · cases h; exact ⟨by simp, by simp⟩
    · split at h
      · cases h; exact ⟨by simp, by simp⟩
      · cases h
  split at h
  · exact nv (fun v => { m with hashType := some (UInt64.ofNat v) }) h
  split at h
  · exact nv (fun v => { m with fanout := some (UInt64.ofNat v) }) h
  · cases hs : skipField (x % 8) b with
    | error e' => rw [hs] at h; simp only [bind, Except.bind, Except.error.injEq] at h; rw [← h]; exact skipField_sane hs
    | ok s => rw [hs] at h; simp [bind, Except.bind, pure, Except.pure] at h

theorem Data.loop_sane (f : Nat) : ∀ (m : Data) (b : Bytes) (e : Err), Data.loop f m b = .error e → e.Sane := by
  induction f with
  | zero => intro m b e h; cases b <;> simp only [Data.loop] at h <;> cases h; exact ⟨by simp, by simp⟩
  | succ f ih =>
    intro m b e h
    cases b with
    | nil => simp [Data.loop] at h
    | cons x xs =>
      simp only [Data.loop] at h
      split at h
      · cases h; exact ⟨by simp, by simp⟩
      · split at h
        · cases h; rename_i hs; exact Data.step_sane hs
        · exact ih _ _ _ h

theorem Data.unmarshal_sane {b : Bytes} {e : Err} (h : Data.unmarshal b = .error e) : e.Sane := by
  unfold Data.unmarshal at h
  split at h
  · cases h; rename_i hl; exact Data.loop_sane _ _ _ _ hl
  · split at h
    · cases h; exact ⟨by simp, by simp⟩
    · cases h

end Pb

namespace File
open Hamt

theorem fromBytes_sane {b : Bytes} {e : Err} (h : FSNode.fromBytes b = .error e) : e.Sane := by
  rw [FSNode.fromBytes] at h
  split at h
  · cases h; rename_i h; exact Pb.Data.unmarshal_sane h
  · cases h

theorem makeShard_sane {n : Int} {k : Bytes} {v : Option Link} {e : Err} (h : makeShard n k v = .error e) : e.Sane := by
  rw [makeShard] at h
  split at h
  · cases h
    rename_i h
    rw [logtwo] at h
    split at h
    · cases h; exact ⟨by simp, by simp⟩
    · dsimp only at h
      split at h
      · cases h; exact ⟨by simp, by simp⟩
      · cases h
  · split at h
    · cases h; exact ⟨by simp, by simp⟩
    · split at h
      · cases h; exact ⟨by simp, by simp⟩
      · cases h

theorem load_sane {n : Node} {e : Err} (h : newHamtFromDag n = .error e) : e.Sane := by
  unfold newHamtFromDag at h
  split at h
  · split at h
    · cases h; rename_i h; exact fromBytes_sane h
    · split at h
      · cases h; exact ⟨by simp, by simp⟩
      · split at h
        · cases h; exact ⟨by simp, by simp⟩
        · split at h
          · cases h; rename_i h; exact makeShard_sane h
          · cases h
  · cases h; exact ⟨by simp, by simp⟩

/-- A shard as it was loaded: only links, in it, and a width that was accepted. -/
structure Fresh (s : Shard) : Prop where
  links : ∀ x ∈ s.slots, ∃ l, x = .link l
  width : ∃ k, 3 ≤ k ∧ k ≤ 10 ∧ s.size = 2 ^ k
  val : s.val = none

theorem slotsDepth_links : ∀ ls : List Link, slotsDepth (ls.map Slot.link) = linksDepth ls
  | [] => rfl
  | .mk _ _ n :: ls => by rw [List.map_cons, slotsDepth, linksDepth, slotsDepth_links ls]; rfl

theorem load_fresh {n : Node} {s : Shard} (h : newHamtFromDag n = .ok s) : Fresh s ∧ s.depth = nodeDepth n := by
  unfold newHamtFromDag at h
  split at h
  · rename_i d ls b
    split at h
    · cases h
    · split at h
      · cases h
      · split at h
        · cases h
        · split at h
          · cases h
          · rename_i s0 hm
            obtain ⟨k, h1, h2, h3, rfl⟩ := (makeShard_iff _ _ _ _).mp hm
            cases h
            refine ⟨⟨?_, ⟨k, h1, h2, rfl⟩, rfl⟩, ?_⟩
            · intro x hx; simp only [Shard.slots, List.mem_map] at hx; obtain ⟨l, _, rfl⟩ := hx; exact ⟨l, rfl⟩
            · rw [Shard.depth, nodeDepth, slotsDepth_links]
  · cases h

theorem Fresh.lg {s : Shard} (h : Fresh s) : 3 ≤ s.lg ∧ s.lg ≤ 10 := by
  obtain ⟨k, h1, h2, h3⟩ := h.width
  rw [Shard.lg, h3, trailingZeros_pow 64 k (by omega)]
  exact ⟨h1, h2⟩

/-- `get` of a loaded shard. -/
inductive GetRes (s : Shard) (i : Nat) : Except Err (Shard × Shard) → Prop
  | fail {e : Err} (h : e.Sane) : GetRes s i (.error e)
  | sub {l : Link} {c : Shard} (h : s.slots[i]? = some (.link l)) (ht : childLinkType s.size l = .ok .shardLink) (hc : newHamtFromDag l.target = .ok c) :
      GetRes s i (.ok (c, s.setChild c i))
  | value {l : Link} {c : Shard} (h : s.slots[i]? = some (.link l)) (ht : childLinkType s.size l = .ok .shardValueLink) (hc : makeShardValue s.size l = .ok c) :
      GetRes s i (.ok (c, s.setChild c i))

theorem get_fresh {net : Net} {s : Shard} {i : Nat} (h : ∀ x, s.slots[i]? = some x → ∃ l, x = .link l) (t : Nat) : GetRes s i (s.get net i t).1 := by
  rw [Shard.get]
  split
  · exact .fail ⟨by simp, by simp⟩
  · rename_i c hc
    obtain ⟨l, hl⟩ := h _ hc; cases hl
  · rename_i l hl
    split
    · rename_i e he
      refine .fail ?_
      rw [childLinkType] at he
      split at he
      · cases he; exact ⟨by simp, by simp⟩
      · split at he <;> cases he
    · rename_i ht
      split
      · split
        · rename_i e he; exact .fail (load_sane he)
        · rename_i c hc; exact .sub hl ht hc
      · exact .fail ⟨by simp, by simp⟩
    · rename_i ht
      split
      · rename_i e he; exact .fail (makeShard_sane he)
      · rename_i c hc; exact .value hl ht hc

theorem value_child {size : Nat} {l : Link} {c : Shard} (ht : childLinkType size l = .ok .shardValueLink) (hc : makeShardValue size l = .ok c) :
    c.isValueNode = true ∧ c.key = l.name.drop (maxpadlen size) ∧ c.val = some l := by
  obtain ⟨k, _, _, _, rfl⟩ := (makeShard_iff _ _ _ _).mp hc
  rw [childLinkType] at ht
  split at ht
  · cases ht
  split at ht
  · cases ht
  have : l.name.drop (maxpadlen size) ≠ [] := by
    intro h; have := congrArg List.length h; simp at this; omega
  exact ⟨by simp [Shard.isValueNode, Shard.key, Shard.val, this], rfl, rfl⟩

theorem sub_child {n : Node} {c : Shard} (hc : newHamtFromDag n = .ok c) : c.isValueNode = false := by
  simp [Shard.isValueNode, (load_fresh hc).1.val]

/-- The result of a lookup. -/
def Look (s : Shard) (key : Bytes) : Except Err (Option Link) → Prop
  | .error e => e.Sane
  | .ok o => ∃ l c, o = some l ∧ PartOf s (.shard c) ∧ Slot.link l ∈ c.slots ∧ childLinkType c.size l = .ok .shardValueLink ∧ l.name.drop (maxpadlen c.size) = key

/-- Lookup in a loaded shard: sane errors, and what it finds is an entry of the HAMT with the name. -/
theorem getValue_fresh (H : Hash) (net : Net) (f : Nat) : ∀ (s : Shard) (consumed : Nat) (key : Bytes) (t : Nat), Fresh s → consumed ≤ (H key).length * 8 → (H key).length * 8 + 1 ≤ f + consumed →
    Look s key (Shard.getValue H net f s consumed key t).1 := by
  induction f with
  | zero =>
    intro s consumed key t hs hc hf
    omega
  | succ f ih =>
    intro s consumed key t hs hle hf
    have hlg := hs.lg
    rw [Shard.getValue]
    by_cases hd : (H key).length * 8 < consumed + s.lg
    · rw [nextBits_deep _ _ _ hd]; exact ⟨by simp, by simp⟩
    rw [nextBits_ok _ _ _ (by omega) (by omega)]
    dsimp only
    split
    · exact ⟨by simp, by simp⟩
    generalize beNat (H key) / 2 ^ ((H key).length * 8 - consumed - s.lg) % 2 ^ s.lg = idx
    have hg := get_fresh (net := net) (i := s.sliceIndex idx) (fun x hx => hs.links x (List.mem_of_getElem? hx)) t
    generalize s.get net (s.sliceIndex idx) t = G at hg ⊢
    obtain ⟨r, t1⟩ := G
    dsimp only at hg
    cases hg with
    | fail h => exact h
    | sub h ht hc =>
      dsimp only
      rw [if_neg (by rw [sub_child hc]; simp)]
      rename_i l c
      have := ih c (consumed + s.lg) key t1 (load_fresh hc).1 (by omega) (by omega)
      generalize Shard.getValue H net f c (consumed + s.lg) key t1 = R at this ⊢
      obtain ⟨r, c', t2⟩ := R
      dsimp only at this ⊢
      cases r with
      | error e => exact this
      | ok o =>
        obtain ⟨l', c', h1, h2, h3⟩ := this
        refine ⟨l', c', h1, ?_, h3⟩
        exact .head (Part.Has.link (List.mem_of_getElem? h) ht) (.head (Part.Has.load hc) h2)
    | value h ht hc =>
      dsimp only
      obtain ⟨v1, v2, v3⟩ := value_child ht hc
      rename_i l c
      rw [if_pos v1]
      split
      · rename_i hk
        exact ⟨l, s, v3, .refl, List.mem_of_getElem? h, ht, by rw [← v2]; exact hk⟩
      · exact ⟨by simp, by simp⟩

/-! ### Histories of reads and removals -/

/-- A shard in memory that came from arbitrary nodes by reads and removals. -/
inductive Ok : Shard → Prop
  | mk {s : Shard} (width : ∃ k, 3 ≤ k ∧ k ≤ 10 ∧ s.size = 2 ^ k) (sub : ∀ c, Slot.child c ∈ s.slots → c.isValueNode = false → Ok c) : Ok s

theorem Ok.width {s : Shard} (h : Ok s) : ∃ k, 3 ≤ k ∧ k ≤ 10 ∧ s.size = 2 ^ k := by cases h; assumption

theorem Ok.sub {s : Shard} (h : Ok s) {c : Shard} (hc : Slot.child c ∈ s.slots) (hv : c.isValueNode = false) : Ok c := by
  cases h with | mk _ h => exact h c hc hv

theorem Fresh.ok {s : Shard} (h : Fresh s) : Ok s := .mk h.width (fun c hc => by obtain ⟨l, hl⟩ := h.links _ hc; cases hl)

theorem Ok.lg {s : Shard} (h : Ok s) : 3 ≤ s.lg ∧ s.lg ≤ 10 := by
  obtain ⟨k, h1, h2, h3⟩ := h.width
  rw [Shard.lg, h3, trailingZeros_pow 64 k (by omega)]
  exact ⟨h1, h2⟩

theorem Ok.setSlots {s : Shard} (h : Ok s) (bf : Bytes) {l : List Slot} (hl : ∀ c, Slot.child c ∈ l → c.isValueNode = false → Ok c) : Ok (s.withSlots bf l) := by
  cases s; exact .mk h.width hl

theorem Ok.setChild {s : Shard} (h : Ok s) {c : Shard} (hc : c.isValueNode = false → Ok c) (i : Nat) : Ok (s.setChild c i) := by
  refine h.setSlots _ (fun x hx hv => ?_)
  rcases List.mem_or_eq_of_mem_set hx with hx | hx
  · exact h.sub hx hv
  · cases hx; exact hc hv

theorem Ok.setLink {s : Shard} (h : Ok s) (l : Link) (i : Nat) : Ok (s.setLink l i) := by
  refine h.setSlots _ (fun x hx hv => ?_)
  rcases List.mem_or_eq_of_mem_set hx with hx | hx
  · exact h.sub hx hv
  · cases hx

theorem Ok.builder {s : Shard} (h : Ok s) (b : Option Builder) : Ok (s.setCidBuilder b) := by
  cases s; exact .mk h.width (fun c hc hv => h.sub hc hv)

theorem Ok.valued {s : Shard} (h : Ok s) (v : Link) : Ok (s.withVal v) := by
  cases s; exact .mk h.width (fun c hc hv => h.sub hc hv)

/-- Depth of one slot. -/
def slotDepth : Slot → Nat
  | .child s => s.depth
  | .link l => nodeDepth l.target

theorem slotDepth_le {x : Slot} : ∀ {l : List Slot}, x ∈ l → slotDepth x ≤ slotsDepth l
  | y :: l, h => by
    rcases List.mem_cons.mp h with rfl | h
    · cases x <;> simp [slotDepth, slotsDepth]
    · have := slotDepth_le h
      cases y <;> simp only [slotsDepth] <;> omega

/-- `get`. -/
theorem get_ok {net : Net} {s : Shard} (h : Ok s) (i t : Nat) :
    match (s.get net i t).1 with
    | .error e => e.Sane
    | .ok (c, s1) => (c.isValueNode = false → Ok c) ∧ Ok s1 ∧ (∃ x, s.slots[i]? = some x ∧ (c.isValueNode = false → c.depth ≤ slotDepth x)) ∧ (∀ j, j ≠ i → s1.slots[j]? = s.slots[j]?) ∧ s1.slots.length = s.slots.length := by
  have hset : ∀ c j, j ≠ i → (s.setChild c i).slots[j]? = s.slots[j]? := by
    intro c j hj; cases s; exact List.getElem?_set_ne (Ne.symm hj)
  have hlen : ∀ c, (s.setChild c i).slots.length = s.slots.length := by intro c; cases s; exact List.length_set
  cases hx : s.slots[i]? with
  | none => rw [Shard.get, hx]; exact ⟨by simp, by simp⟩
  | some x =>
    cases x with
    | child c =>
      rw [Shard.get, hx]
      exact ⟨fun hv => h.sub (List.mem_of_getElem? hx) hv, h, ⟨_, rfl, fun _ => le_refl _⟩, fun _ _ => rfl, rfl⟩
    | link l =>
      have hg := get_fresh (net := net) (s := s) (i := i) (fun x hx' => ⟨l, by rw [hx] at hx'; cases hx'; rfl⟩) t
      generalize (s.get net i t).1 = G at hg ⊢
      cases hg with
      | fail h => exact h
      | sub h1 ht hc =>
        have hf := load_fresh hc
        rw [hx] at h1; cases h1
        exact ⟨fun _ => hf.1.ok, h.setChild (fun _ => hf.1.ok) i, ⟨_, rfl, fun _ => by rw [hf.2]; exact le_refl _⟩, hset _, hlen _⟩
      | value h1 ht hc =>
        have hv := (value_child ht hc).1
        exact ⟨fun hv' => (by rw [hv] at hv'; cases hv'), h.setChild (fun hv' => by rw [hv] at hv'; cases hv') i, ⟨_, rfl, fun hv' => by rw [hv] at hv'; cases hv'⟩, hset _, hlen _⟩

/-- Result and new shard of a lookup or removal. -/
def Fine {α : Type} (r : Except Err α × Shard × Nat) : Prop := (∀ e, r.1 = .error e → e.Sane) ∧ Ok r.2.1

theorem Fine.fail {α : Type} {e : Err} {s : Shard} {t : Nat} (he : e.Sane) (hs : Ok s) : Fine (α := α) (.error e, s, t) := ⟨fun e' h => by cases h; exact he, hs⟩

theorem Fine.good {α : Type} {x : α} {s : Shard} {t : Nat} (hs : Ok s) : Fine (.ok x, s, t) := ⟨(fun e' h => nomatch h), hs⟩

theorem getValue_ok (H : Hash) (net : Net) (f : Nat) : ∀ (s : Shard) (consumed : Nat) (key : Bytes) (t : Nat), Ok s → consumed ≤ (H key).length * 8 →
    (H key).length * 8 + 1 ≤ f + consumed → Fine (Shard.getValue H net f s consumed key t) := by
  induction f with
  | zero => intro s consumed key t hs hc hf; omega
  | succ f ih =>
    intro s consumed key t hs hle hf
    have hlg := hs.lg
    rw [Shard.getValue]
    by_cases hd : (H key).length * 8 < consumed + s.lg
    · rw [nextBits_deep _ _ _ hd]; exact .fail ⟨by simp, by simp⟩ hs
    rw [nextBits_ok _ _ _ (by omega) (by omega)]
    dsimp only
    split
    · exact .fail ⟨by simp, by simp⟩ hs
    generalize beNat (H key) / 2 ^ ((H key).length * 8 - consumed - s.lg) % 2 ^ s.lg = idx
    have hg := get_ok (net := net) hs (s.sliceIndex idx) t
    generalize s.get net (s.sliceIndex idx) t = G at hg ⊢
    obtain ⟨r, t1⟩ := G
    cases r with
    | error e => exact .fail hg hs
    | ok q =>
      obtain ⟨c, s1⟩ := q
      obtain ⟨g1, g2, g3⟩ := hg
      dsimp only
      split
      · split
        · exact .good g2
        · exact .fail ⟨by simp, by simp⟩ g2
      · rename_i hv
        have hc := g1 (by simpa using hv)
        have := ih c (consumed + s.lg) key t1 hc (by omega) (by omega)
        generalize Shard.getValue H net f c (consumed + s.lg) key t1 = R at this ⊢
        obtain ⟨r, c', t2⟩ := R
        exact ⟨this.1, g2.setChild (fun _ => this.2) _⟩

theorem rm_ok {s : Shard} (h : Ok s) (idx : Nat) : match s.rm idx with | .error e => e.Sane | .ok s' => Ok s' := by
  by_cases hi : s.sliceIndex idx ≥ s.slots.length
  · rw [Shard.rm, if_pos hi]; exact ⟨by simp, by simp⟩
  · rw [Shard.rm, if_neg hi]; exact h.setSlots _ (fun c hc hv => h.sub (List.mem_of_mem_eraseIdx hc) hv)

theorem collapse_ok {s child : Shard} (h : Ok s) (idx i : Nat) (old : Option Link) (t : Nat) :
    Fine ((s.collapse idx i child old).1, (s.collapse idx i child old).2, t) := by
  rw [Shard.collapse]
  split
  · have := rm_ok h idx
    split
    · rename_i e he; rw [he] at this; exact .fail this h
    · rename_i s' he; rw [he] at this; exact .good this
  · refine .good ?_
    split
    · rename_i hv; exact h.setChild (fun h' => by rw [hv] at h'; cases h') _
    · exact h
  · rename_i l hl
    split
    · rename_i e he
      refine .fail ?_ h
      rw [childLinkType] at he
      split at he
      · cases he; exact ⟨by simp, by simp⟩
      · split at he <;> cases he
    · exact .good (h.setLink _ _)
    · exact .good h
  · exact .good h

theorem take_ok (H : Hash) (net : Net) (f : Nat) : ∀ (s : Shard) (consumed : Nat) (key : Bytes) (t : Nat), Ok s → consumed ≤ (H key).length * 8 →
    (H key).length * 8 + 1 ≤ f + consumed → Fine (Shard.swapValue H net f s consumed key none t) := by
  induction f with
  | zero => intro s consumed key t hs hc hf; omega
  | succ f ih =>
    intro s consumed key t hs hle hf
    have hlg := hs.lg
    rw [Shard.swapValue]
    by_cases hd : (H key).length * 8 < consumed + s.lg
    · rw [nextBits_deep _ _ _ hd]; exact .fail ⟨by simp, by simp⟩ hs
    rw [nextBits_ok _ _ _ (by omega) (by omega)]
    dsimp only
    split
    · rw [Shard.insert]; exact .fail ⟨by simp, by simp⟩ hs
    generalize beNat (H key) / 2 ^ ((H key).length * 8 - consumed - s.lg) % 2 ^ s.lg = idx
    have hg := get_ok (net := net) hs (s.sliceIndex idx) t
    generalize s.get net (s.sliceIndex idx) t = G at hg ⊢
    obtain ⟨r, t1⟩ := G
    cases r with
    | error e => exact .fail hg hs
    | ok q =>
      obtain ⟨c, s1⟩ := q
      obtain ⟨g1, g2, g3⟩ := hg
      dsimp only
      split
      · split
        · have := rm_ok g2 idx
          split
          · rename_i e he; rw [he] at this; exact .fail this g2
          · rename_i s' he; rw [he] at this; exact .good this
        · exact .fail ⟨by simp, by simp⟩ g2
      · rename_i hv
        have hc := g1 (by simpa using hv)
        have := ih c (consumed + s.lg) key t1 hc (by omega) (by omega)
        generalize Shard.swapValue H net f c (consumed + s.lg) key none t1 = R at this ⊢
        obtain ⟨r, c', t2⟩ := R
        cases r with
        | error e => exact .fail (this.1 e rfl) (g2.setChild (fun _ => this.2) _)
        | ok o => exact collapse_ok (g2.setChild (fun _ => this.2) _) _ _ _ _

/-- The loop of `ForEachLink`, if the positions that are left have depth at most `f`. -/
theorem eachLoop_ok {net : Net} {step : Shard → EachSt → Option Err × Shard × EachSt} {f : Nat}
    (hstep : ∀ c st, (c.isValueNode = false → Ok c ∧ c.depth ≤ f) → (∀ e, (step c st).1 = some e → e.Sane) ∧ ((step c st).2.1.isValueNode = false → Ok (step c st).2.1)) :
    ∀ (is : List Nat) (s : Shard) (st : EachSt), is.Nodup → Ok s → (∀ j ∈ is, ∀ x, s.slots[j]? = some x → slotDepth x ≤ f) →
      (∀ e, (eachLoop net step is s st).1 = some e → e.Sane) ∧ Ok (eachLoop net step is s st).2.1 := by
  intro is
  induction is with
  | nil => intro s st _ hs _; exact ⟨(fun e h => nomatch h), hs⟩
  | cons i is ih =>
    intro s st hn hs hd
    obtain ⟨hi, hn⟩ := List.nodup_cons.mp hn
    rw [eachLoop]
    have hg := get_ok (net := net) hs i st.t
    generalize s.get net i st.t = G at hg ⊢
    obtain ⟨r, t1⟩ := G
    cases r with
    | error e => exact ⟨fun e' h => by cases h; exact hg, hs⟩
    | ok q =>
      obtain ⟨c, s1⟩ := q
      obtain ⟨g1, g2, ⟨x, g3, g4⟩, g5, g6⟩ := hg
      dsimp only
      have h1 := hstep c { st with t := t1 } (fun hv => ⟨g1 hv, le_trans (g4 hv) (hd i (by simp) x g3)⟩)
      generalize step c { st with t := t1 } = R at h1 ⊢
      obtain ⟨e, c', st'⟩ := R
      cases e with
      | some e => exact ⟨fun e' h => by cases h; exact h1.1 e rfl, g2.setChild h1.2 i⟩
      | none =>
        refine ih _ _ hn (g2.setChild h1.2 i) (fun j hj y hy => ?_)
        have hji : j ≠ i := fun h => hi (h ▸ hj)
        refine hd j (by simp [hj]) y ?_
        rw [← g5 j hji]
        rw [← hy]
        cases s1
        exact (List.getElem?_set_ne (Ne.symm hji)).symm

theorem forEach_ok (net : Net) (cb : Nat → Bool) (f : Nat) : ∀ (s : Shard) (st : EachSt), Ok s → s.depth ≤ f →
    (∀ e, (forEachF net cb f s st).1 = some e → e.Sane) ∧ Ok (forEachF net cb f s st).2.1 := by
  induction f with
  | zero => intro s st _ h; cases s; simp [Shard.depth] at h
  | succ f ih =>
    intro s st hs hd
    rw [forEachF]
    refine eachLoop_ok (f := f) (fun c st' hc => ?_) _ _ _ List.nodup_range hs (fun j _ x hx => ?_)
    · dsimp only
      split
      · rename_i hv
        refine ⟨fun e he => ?_, fun h => ?_⟩
        · dsimp only at he
          split at he
          · cases he; exact ⟨by simp, by simp⟩
          · cases he
        · dsimp only at h
          cases c
          rw [Shard.isValueNode, Bool.and_eq_true] at hv
          rw [Shard.isValueNode, Bool.and_eq_false_iff] at h
          rcases h with h | h
          · exact absurd (of_decide_eq_true hv.1) (of_decide_eq_false h)
          · cases h
      · rename_i hv
        have := hc (by simpa using hv)
        have := ih c st' this.1 this.2
        exact ⟨this.1, fun _ => this.2⟩
    · have := slotDepth_le (List.mem_of_getElem? hx)
      cases s
      simp only [Shard.depth, Shard.slots] at hd this
      omega

end File
end Unixfs
