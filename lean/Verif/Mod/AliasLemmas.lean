import Verif.Mod.Alias
import Verif.Mod.Any

/-!
# What the calls on a modifier do to the memory (C84)

The definitions in this file belong to proofs; they model no code.
-/

namespace Unixfs.Mod
open Unixfs Unixfs.Spec Unixfs.Import Unixfs.Reader

variable {env : Env} {kp : Nat → Nat} {hd hd' : HDM}

/-! ### Forgetting the memory -/

namespace HDM

theorem expandSparse_erase (size : Int) : ((hd.expandSparse env kp size).1, (hd.expandSparse env kp size).2.dm) = hd.dm.expandSparse env size := by
  unfold expandSparse
  split <;> (rename_i h; rw [h]; rfl)

theorem syncTail_erase (n : Nat) : ((hd.syncTail env n).1, (hd.syncTail env n).2.dm) = hd.dm.syncTail env n := by
  unfold syncTail
  split; rename_i h; rw [h]; rfl

theorem syncModify_erase (n : Nat) : ((hd.syncModify env n).1, (hd.syncModify env n).2.dm) = hd.dm.syncModify env n := by
  unfold syncModify DM.syncModify
  generalize modifyDag env hd.dm.cur hd.dm.ws (hd.dm.buf.getD []) hd.dm.svc = R
  obtain ⟨r, n', rest, svc⟩ := R
  cases r with
  | error e => rfl
  | ok k =>
    dsimp only
    generalize svc.get env k = G
    obtain ⟨g, svc'⟩ := G
    cases g with
    | error e => rfl
    | ok u => exact syncTail_erase _

theorem sync_erase (hd : HDM) : ((hd.sync env kp).1, (hd.sync env kp).2.dm) = hd.dm.sync env := by
  obtain ⟨⟨cur, ws, cw, buf, pfx, rl, read, svc⟩, cells, heap, next, held⟩ := hd
  cases buf with
  | none => rfl
  | some buf =>
    unfold sync DM.sync
    dsimp only
    cases fileSize cur with
    | error e => rfl
    | ok fs =>
      dsimp only
      split
      · rw [← expandSparse_erase (kp := kp) (hd := ⟨⟨cur, ws, cw, some buf, pfx, rl, none, svc⟩, cells, heap, next, held⟩)]
        generalize expandSparse env kp ⟨⟨cur, ws, cw, some buf, pfx, rl, none, svc⟩, cells, heap, next, held⟩ (s64 (ws - fs)) = R
        obtain ⟨r, hd1⟩ := R
        cases r with
        | error e => rfl
        | ok u => exact syncModify_erase _
      · exact syncModify_erase _

theorem write_erase (hd : HDM) (b : Bytes) : ((hd.write env kp b).1, (hd.write env kp b).2.dm) = hd.dm.write env b := by
  obtain ⟨⟨cur, ws, cw, buf, pfx, rl, read, svc⟩, cells, heap, next, held⟩ := hd
  unfold write DM.write
  dsimp only
  split
  · rw [← sync_erase (kp := kp) (hd := ⟨⟨cur, ws, cw + UInt64.ofNat b.length, some (buf.getD [] ++ b), pfx, rl, none, svc⟩, cells, heap, next, held⟩)]
    generalize sync env kp _ = R
    obtain ⟨r, hd1⟩ := R
    cases r <;> rfl
  · rfl

theorem writeAt_erase (hd : HDM) (b : Bytes) (off : Int) : ((hd.writeAt env kp b off).1, (hd.writeAt env kp b off).2.dm) = hd.dm.writeAt env b off := by
  unfold writeAt DM.writeAt
  split
  · split <;> exact write_erase _ _
  split
  · split
    · rename_i e he; rw [he]
    · rename_i size he
      rw [he]
      dsimp only
      have e1 : (((if off > size then hd.expandSparse env kp (i64 (off - size)) else (.ok (), hd)) : Except Err Unit × HDM).1,
          ((if off > size then hd.expandSparse env kp (i64 (off - size)) else (.ok (), hd)) : Except Err Unit × HDM).2.dm) =
          if off > size then hd.dm.expandSparse env (i64 (off - size)) else (.ok (), hd.dm) := by
        split
        · exact expandSparse_erase _
        · rfl
      rw [← e1]
      generalize (if off > size then hd.expandSparse env kp (i64 (off - size)) else (.ok (), hd)) = R
      obtain ⟨r, hd1⟩ := R
      cases r with
      | error e => rfl
      | ok u =>
        dsimp only
        rw [← sync_erase (kp := kp) hd1]
        generalize hd1.sync env kp = R
        obtain ⟨r, hd2⟩ := R
        cases r with
        | error e => rfl
        | ok u => exact write_erase _ _
  · exact write_erase _ _

theorem seekTail_erase (hd : HDM) (fi : Int) (new : UInt64) (pos off wh : Int) :
    ((hd.seekTail env kp fi new pos off wh).1, (hd.seekTail env kp fi new pos off wh).2.dm) = hd.dm.seekTail env fi new pos off wh := by
  unfold seekTail
  generalize hd.dm.seekTail env fi new pos off wh = X
  rfl

theorem seek_erase (hd : HDM) (off whence : Int) : ((hd.seek env kp off whence).1, (hd.seek env kp off whence).2.dm) = hd.dm.seek env off whence := by
  unfold seek DM.seek
  rw [← sync_erase (kp := kp) hd]
  generalize hd.sync env kp = R
  obtain ⟨r, hd1⟩ := R
  cases r with
  | error e => rfl
  | ok u =>
    dsimp only
    split
    · rename_i e he; rw [he]
    · rename_i fi he
      rw [he]
      dsimp only
      split
      · rename_i e he; rw [he]
      · rename_i new he; rw [he]; exact seekTail_erase _ _ _ _ _ _

theorem truncate_erase (hd : HDM) (size : Int) : ((hd.truncate env kp size).1, (hd.truncate env kp size).2.dm) = hd.dm.truncate env size := by
  unfold truncate DM.truncate
  rw [← sync_erase (kp := kp) hd]
  generalize hd.sync env kp = R
  obtain ⟨r, hd1⟩ := R
  cases r with
  | error e => rfl
  | ok u =>
    dsimp only
    split
    · rename_i e he; rw [he]
    · rename_i fi he
      rw [he]
      dsimp only
      split
      · rfl
      split
      · exact expandSparse_erase _
      generalize dagTruncate env hd1.dm.cur (u64 size) hd1.dm.svc = T
      obtain ⟨r, svc⟩ := T
      cases r with
      | error e => rfl
      | ok n =>
        dsimp only
        generalize svc.add env n = A
        obtain ⟨r, svc'⟩ := A
        cases r <;> rfl

theorem getNode_erase (hd : HDM) : ((hd.getNode env kp).1, (hd.getNode env kp).2.dm) = hd.dm.getNode env := by
  unfold getNode DM.getNode
  rw [← sync_erase (kp := kp) hd]
  generalize hd.sync env kp = R
  obtain ⟨r, hd1⟩ := R
  cases r <;> rfl

/-- With the memory forgotten, a call does what `Mod/DagModifier.lean` says. -/
theorem step_erase (hd : HDM) (op : MOp) : ((hd.step env kp op).1, (hd.step env kp op).2.dm) = hd.dm.step env op := by
  cases op with
  | write b => simp only [step, DM.step, ← write_erase (kp := kp) hd]
  | writeAt b off => simp only [step, DM.step, ← writeAt_erase (kp := kp) hd]
  | read k => rfl
  | seek off wh => simp only [step, DM.step, ← seek_erase (kp := kp) hd]
  | truncate s => simp only [step, DM.step, ← truncate_erase (kp := kp) hd]
  | sync => simp only [step, DM.step, ← sync_erase (kp := kp) hd]
  | getNode =>
    simp only [step, DM.step]
    rw [← getNode_erase (kp := kp) hd]
    generalize hd.getNode env kp = R
    obtain ⟨r, hd1⟩ := R
    cases r <;> rfl
  | size => rfl
  | hasChanges => rfl

theorem after_erase : ∀ (ops : List MOp) (hd : HDM), (hd.after env kp ops).dm = (hd.dm.run env ops).2
  | [], _ => rfl
  | op :: ops, hd => by
    rw [after, after_erase ops, DM.run, ← step_erase (kp := kp) hd op]

/-! ### The memory -/

/-- The addresses are right: the current node is in memory, its links are different objects, and nobody
holds an address that is not in use. -/
structure Inv (hd : HDM) : Prop where
  links : hd.dm.cur.links = hd.cells.map hd.heap
  nodup : hd.cells.Nodup
  lt : ∀ i ∈ hd.cells, i < hd.next
  held : ∀ o ∈ hd.held, ∀ i ∈ o.links, i < hd.next

/-- From `hd` to `hd'`: the nodes held are still held; the current node has the same link objects or new
ones; only the link objects of the current node have changed, and only in their targets. -/
structure Ev (hd hd' : HDM) : Prop where
  next : hd.next ≤ hd'.next
  held : ∃ more, hd'.held = hd.held ++ more
  cells : ∀ i ∈ hd'.cells, i ∈ hd.cells ∨ hd.next ≤ i
  heap : ∀ i < hd.next, i ∉ hd.cells → hd'.heap i = hd.heap i
  shape : ∀ i < hd.next, (hd'.heap i).name = (hd.heap i).name ∧ (hd'.heap i).tsize = (hd.heap i).tsize

theorem Ev.refl (hd : HDM) : Ev hd hd := ⟨Nat.le_refl _, ⟨[], by simp⟩, fun _ h => .inl h, fun _ _ _ => rfl, fun _ _ => ⟨rfl, rfl⟩⟩

theorem Ev.trans {a b c : HDM} (h1 : Ev a b) (h2 : Ev b c) : Ev a c := by
  refine ⟨Nat.le_trans h1.next h2.next, ?_, fun i hi => ?_, fun i hi hn => ?_, fun i hi => ?_⟩
  · obtain ⟨m1, e1⟩ := h1.held
    obtain ⟨m2, e2⟩ := h2.held
    exact ⟨m1 ++ m2, by rw [e2, e1, List.append_assoc]⟩
  · rcases h2.cells i hi with h | h
    · exact h1.cells i h
    · exact .inr (Nat.le_trans h1.next h)
  · have hb : i ∉ b.cells := fun h => (h1.cells i h).elim hn (fun h => by omega)
    rw [h2.heap i (Nat.lt_of_lt_of_le hi h1.next) hb, h1.heap i hi hn]
  · have a1 := h1.shape i hi
    have a2 := h2.shape i (Nat.lt_of_lt_of_le hi h1.next)
    exact ⟨a2.1.trans a1.1, a2.2.trans a1.2⟩

/-- `hd'` comes after `hd`. -/
def Goes (hd hd' : HDM) : Prop := Inv hd → Inv hd' ∧ Ev hd hd'

theorem Goes.refl (hd : HDM) : Goes hd hd := fun h => ⟨h, .refl _⟩

theorem Goes.trans {a b c : HDM} (h1 : Goes a b) (h2 : Goes b c) : Goes a c := fun h => by
  obtain ⟨i1, e1⟩ := h1 h
  obtain ⟨i2, e2⟩ := h2 i1
  exact ⟨i2, e1.trans e2⟩

/-- Nothing is done to the node. -/
theorem Goes.same {dm : DM} (h : dm.cur.links = hd.dm.cur.links) : Goes hd { hd with dm := dm } := fun hi =>
  ⟨⟨h.trans hi.links, hi.nodup, hi.lt, hi.held⟩, ⟨Nat.le_refl _, ⟨[], by simp⟩, fun _ h => .inl h, fun _ _ _ => rfl, fun _ _ => ⟨rfl, rfl⟩⟩⟩

theorem lookup_zip_none : ∀ {ids : List Nat} {ls : List Link} {i : Nat}, i ∉ ids → (ids.zip ls).lookup i = none
  | [], _, _, _ => rfl
  | _ :: _, [], _, _ => rfl
  | j :: ids, l :: ls, i, h => by
    rw [List.mem_cons, not_or] at h
    rw [List.zip_cons_cons, List.lookup_cons, show (i == j) = false by simpa using h.1]
    exact lookup_zip_none h.2

theorem store_of_not_mem {heap : Nat → Link} {ids : List Nat} {ls : List Link} {i : Nat} (h : i ∉ ids) : store heap ids ls i = heap i := by
  rw [store, lookup_zip_none h]

theorem store_map : ∀ {heap : Nat → Link} {ids : List Nat} {ls : List Link}, ids.Nodup → ids.length = ls.length → ids.map (store heap ids ls) = ls
  | _, [], [], _, _ => rfl
  | heap, j :: ids, l :: ls, hn, hl => by
    rw [List.nodup_cons] at hn
    rw [List.map_cons]
    have h1 : store heap (j :: ids) (l :: ls) j = l := by simp [store]
    have h2 : ids.map (store heap (j :: ids) (l :: ls)) = ids.map (store heap ids ls) := by
      refine List.map_congr_left (fun i hi => ?_)
      have : i ≠ j := fun e => hn.1 (e ▸ hi)
      rw [store, store, List.zip_cons_cons, List.lookup_cons, show (i == j) = false by simpa using this]
    rw [h1, h2, store_map hn.2 (by simpa using hl)]

theorem take_samePrefix : ∀ (as bs : List Link) (k : Nat), k ≤ samePrefix as bs → bs.take k = as.take k ∧ k ≤ as.length
  | a :: as, b :: bs, 0, _ => by simp
  | a :: as, b :: bs, k + 1, h => by
    rw [samePrefix] at h
    split at h
    · rename_i e
      obtain ⟨h1, h2⟩ := take_samePrefix as bs k (by omega)
      rw [List.take_succ_cons, List.take_succ_cons, h1, e]
      exact ⟨rfl, by simp; omega⟩
    · omega
  | [], bs, k, h => by
    simp only [samePrefix] at h
    obtain rfl : k = 0 := by omega
    simp
  | a :: as, [], k, h => by
    simp only [samePrefix] at h
    obtain rfl : k = 0 := by omega
    simp

theorem Goes.adopt (dm : DM) (keep : Nat) : Goes hd (hd.adopt dm keep) := by
  intro hi
  unfold HDM.adopt
  dsimp only
  generalize hk : min keep (samePrefix hd.dm.cur.links dm.cur.links) = k
  have hk' : k ≤ samePrefix hd.dm.cur.links dm.cur.links := by omega
  obtain ⟨h1, h2⟩ := take_samePrefix _ _ k hk'
  have hnew : ∀ i ∈ List.range' hd.next (dm.cur.links.drop k).length, hd.next ≤ i ∧ i < hd.next + (dm.cur.links.drop k).length := by
    intro i hi'
    rw [List.mem_range'_1] at hi'
    exact hi'
  have hold : ∀ i < hd.next, store hd.heap (List.range' hd.next (dm.cur.links.drop k).length) (dm.cur.links.drop k) i = hd.heap i :=
    fun i hlt => store_of_not_mem (fun hm => by have := (hnew i hm).1; omega)
  refine ⟨⟨?_, ?_, ?_, ?_⟩, ⟨Nat.le_add_right _ _, ⟨[], by simp⟩, ?_, fun i hlt _ => hold i hlt, fun i hlt => by dsimp only; rw [hold i hlt]; exact ⟨rfl, rfl⟩⟩⟩
  · dsimp only
    rw [List.map_append, store_map List.nodup_range' (by simp)]
    have : (hd.cells.take k).map (store hd.heap (List.range' hd.next (dm.cur.links.drop k).length) (dm.cur.links.drop k)) = dm.cur.links.take k := by
      rw [h1, hi.links, ← List.map_take]
      exact List.map_congr_left (fun i hm => hold i (hi.lt i (List.mem_of_mem_take hm)))
    rw [this, List.take_append_drop]
  · dsimp only
    rw [List.nodup_append]
    refine ⟨hi.nodup.sublist (List.take_sublist _ _), List.nodup_range', ?_⟩
    intro a ha b hb e
    subst e
    have := hi.lt a (List.mem_of_mem_take ha)
    have := (hnew a hb).1
    omega
  · intro i hm
    dsimp only at hm ⊢
    rcases List.mem_append.mp hm with h | h
    · have := hi.lt i (List.mem_of_mem_take h); omega
    · exact (hnew i h).2
  · intro o ho i hm
    have := hi.held o ho i hm
    dsimp only; omega
  · intro i hm
    dsimp only at hm
    rcases List.mem_append.mp hm with h | h
    · exact .inl (List.mem_of_mem_take h)
    · exact .inr (hnew i h).1

/-- The name and the recorded size of a link. -/
def face (l : Link) : Bytes × UInt64 := (l.name, l.tsize)

/-- The targets of the links of the current node are changed in place. -/
theorem Goes.inplace {dm : DM} (h : dm.cur.links.map face = hd.dm.cur.links.map face) :
    Goes hd { hd with dm := dm, heap := store hd.heap hd.cells dm.cur.links } := by
  intro hi
  have hl : hd.cells.length = dm.cur.links.length := by
    have := congrArg List.length h
    simp only [List.length_map] at this
    rw [this, hi.links, List.length_map]
  have hm := store_map (heap := hd.heap) hi.nodup hl
  refine ⟨⟨hm.symm, hi.nodup, hi.lt, hi.held⟩, ⟨Nat.le_refl _, ⟨[], by simp⟩, fun _ h => .inl h, fun i _ hn => store_of_not_mem hn, fun i _ => ?_⟩⟩
  by_cases hc : i ∈ hd.cells
  · rw [← hm, hi.links, List.map_map, List.map_map] at h
    have := List.map_inj_left.mp h i hc
    simp only [Function.comp_apply, face, Prod.mk.injEq] at this
    exact this
  · dsimp only
    rw [store_of_not_mem hc]; exact ⟨rfl, rfl⟩

theorem modifyLinks_face : ∀ (bss : List UInt64) (ls : List Link) (cur off : UInt64) (buf : Bytes) (svc : Svc),
    (modifyLinks env bss ls cur off buf svc).2.1.map face = ls.map face
  | [], ls, _, _, _, _ => by rw [modifyLinks]
  | bs :: bss, [], _, _, _, _ => by rw [modifyLinks]
  | bs :: bss, .mk nm sz child :: ls, cur, off, buf, svc => by
    rw [modifyLinks]
    split
    · generalize svc.get env child = G
      obtain ⟨g, svc1⟩ := G
      cases g with
      | error e => rfl
      | ok u =>
        dsimp only
        generalize modifyDag env child (off - cur) buf svc1 = M
        obtain ⟨m, x, rest, svc2⟩ := M
        cases m with
        | error e => rfl
        | ok k =>
          dsimp only
          split
          · rfl
          · have := modifyLinks_face bss ls (cur + bs) (cur + bs) rest svc2
            generalize modifyLinks env bss ls (cur + bs) (cur + bs) rest svc2 = R at this
            obtain ⟨r, ls', b', s'⟩ := R
            exact congrArg (_ :: ·) this
    · have := modifyLinks_face bss ls (cur + bs) off buf svc
      generalize modifyLinks env bss ls (cur + bs) off buf svc = R at this
      obtain ⟨r, ls', b', s'⟩ := R
      exact congrArg (_ :: ·) this

theorem modifyDag_face (n : Node) (off : UInt64) (buf : Bytes) (svc : Svc) : (modifyDag env n off buf svc).2.1.links.map face = n.links.map face := by
  cases n with
  | raw d b => rw [modifyDag]; split; · rfl
               dsimp only; split <;> rfl
  | other d => rw [modifyDag]
  | proto d ls b =>
    cases ls with
    | nil =>
      rw [modifyDag]
      split
      · rfl
      · split
        · rfl
        · dsimp only
          split
          · rfl
          · split <;> rfl
    | cons l ls =>
      rw [modifyDag]
      split
      · rfl
      · rename_i fs _
        have := modifyLinks_face (env := env) fs.blockSizes (l :: ls) 0 off buf svc
        generalize modifyLinks env fs.blockSizes (l :: ls) 0 off buf svc = R at this
        obtain ⟨r, ls', b', s'⟩ := R
        cases r with
        | some e => exact this
        | none =>
          dsimp only
          generalize s'.add env (.proto d ls' b) = A
          obtain ⟨a, s''⟩ := A
          cases a <;> exact this

/-! ### The calls -/

theorem expandSparse_goes (size : Int) : Goes hd (hd.expandSparse env kp size).2 := by
  unfold expandSparse
  split <;> exact .adopt _ _

theorem syncTail_goes (n : Nat) : Goes hd (hd.syncTail env n).2 := .adopt _ _

theorem syncModify_goes (n : Nat) : Goes hd (hd.syncModify env n).2 := by
  have hf := modifyDag_face (env := env) hd.dm.cur hd.dm.ws (hd.dm.buf.getD []) hd.dm.svc
  unfold syncModify
  generalize modifyDag env hd.dm.cur hd.dm.ws (hd.dm.buf.getD []) hd.dm.svc = R at hf
  obtain ⟨r, n', rest, svc⟩ := R
  cases r with
  | error e => exact Goes.inplace (dm := { hd.dm with cur := n', buf := some rest, svc := svc }) hf
  | ok k =>
    dsimp only
    have h1 : Goes hd { hd with dm := { hd.dm with cur := n' }, heap := store hd.heap hd.cells n'.links } := Goes.inplace (dm := { hd.dm with cur := n' }) hf
    have h2 : ∀ dm, Goes hd (adopt { hd with heap := store hd.heap hd.cells n'.links } dm 0) := by
      intro dm
      have := h1.trans (.adopt dm 0)
      simp only [adopt, Nat.zero_min] at this ⊢
      exact this
    generalize svc.get env k = G
    obtain ⟨g, svc'⟩ := G
    cases g with
    | error e => exact h2 _
    | ok u => exact (h2 _).trans (syncTail_goes _)

theorem sync_goes : Goes hd (hd.sync env kp).2 := by
  unfold sync
  split
  · exact .refl _
  rename_i buf _
  have h0 : Goes hd { hd with dm := { hd.dm with read := none } } := .same rfl
  refine h0.trans ?_
  dsimp only
  split
  · exact .refl _
  rename_i fs _
  split
  · have h1 := expandSparse_goes (env := env) (kp := kp) (hd := { hd with dm := { hd.dm with read := none } }) (s64 (hd.dm.ws - fs))
    generalize expandSparse env kp { hd with dm := { hd.dm with read := none } } (s64 (hd.dm.ws - fs)) = R at h1
    obtain ⟨r, hd1⟩ := R
    cases r with
    | error e => exact h1
    | ok u => exact h1.trans (syncModify_goes _)
  · exact syncModify_goes _

/-- After a flush, the links of the current node are new objects. -/
theorem sync_fresh (hi : Inv hd) (hp : hd.dm.hasChanges = true) (hr : ∃ u, (hd.sync env kp).1 = .ok u) :
    ∀ i ∈ (hd.sync env kp).2.cells, hd.next ≤ i := by
  have key : ∀ (h : HDM) (n : Nat), Inv h → (∃ u, (h.syncModify env n).1 = .ok u) → ∀ i ∈ (h.syncModify env n).2.cells, h.next ≤ i := by
    intro h n hi hr
    have hf := modifyDag_face (env := env) h.dm.cur h.dm.ws (h.dm.buf.getD []) h.dm.svc
    unfold syncModify at hr ⊢
    generalize modifyDag env h.dm.cur h.dm.ws (h.dm.buf.getD []) h.dm.svc = R at hf hr
    obtain ⟨r, n', rest, svc⟩ := R
    cases r with
    | error e => obtain ⟨u, hu⟩ := hr; cases hu
    | ok k =>
      dsimp only at hr ⊢
      generalize svc.get env k = G at hr
      obtain ⟨g, svc'⟩ := G
      cases g with
      | error e => obtain ⟨u, hu⟩ := hr; cases hu
      | ok u =>
        dsimp only at hr ⊢
        have h2 : Inv (adopt { h with heap := store h.heap h.cells n'.links } { h.dm with cur := k, buf := some rest, svc := svc' } 0) := by
          have := (((Goes.inplace (dm := { h.dm with cur := n' }) hf).trans (.adopt { h.dm with cur := k, buf := some rest, svc := svc' } 0)) hi).1
          simp only [adopt, Nat.zero_min] at this ⊢
          exact this
        have h3 := (syncTail_goes (env := env) n h2).2
        intro i hm
        rcases h3.cells i hm with hm | hm
        · simp only [adopt, Nat.zero_min, List.take_zero, List.nil_append, List.mem_range'_1] at hm
          exact hm.1
        · simp only [adopt] at hm
          omega
  unfold sync at hr ⊢
  cases hb : hd.dm.buf with
  | none => simp [DM.hasChanges, hb] at hp
  | some buf =>
    rw [hb] at hr
    dsimp only at hr ⊢
    have hi0 : Inv { hd with dm := { hd.dm with read := none } } := ⟨hi.links, hi.nodup, hi.lt, hi.held⟩
    split at hr
    · obtain ⟨u, hu⟩ := hr; cases hu
    rename_i fs _
    split at hr
    · rename_i hlt
      rw [if_pos hlt]
      have h1 := expandSparse_goes (env := env) (kp := kp) (hd := { hd with dm := { hd.dm with read := none } }) (s64 (hd.dm.ws - fs)) hi0
      generalize expandSparse env kp { hd with dm := { hd.dm with read := none } } (s64 (hd.dm.ws - fs)) = R at h1 hr
      obtain ⟨r, hd1⟩ := R
      cases r with
      | error e => obtain ⟨u, hu⟩ := hr; cases hu
      | ok u => exact fun i hm => Nat.le_trans h1.2.next (key _ _ h1.1 hr i hm)
    · rename_i hlt
      rw [if_neg hlt]
      exact key _ _ hi0 hr

theorem write_goes (b : Bytes) : Goes hd (hd.write env kp b).2 := by
  unfold write
  dsimp only
  have h0 : Goes hd { hd with dm := { hd.dm with read := none, buf := some (hd.dm.buf.getD [] ++ b), cw := hd.dm.cw + UInt64.ofNat b.length } } := .same rfl
  split
  · refine h0.trans ?_
    generalize { hd with dm := { hd.dm with read := none, buf := some (hd.dm.buf.getD [] ++ b), cw := hd.dm.cw + UInt64.ofNat b.length } } = hd0
    have h1 := sync_goes (env := env) (kp := kp) (hd := hd0)
    generalize hd0.sync env kp = R at h1
    obtain ⟨r, hd1⟩ := R
    cases r <;> exact h1
  · exact h0

theorem writeAt_goes (b : Bytes) (off : Int) : Goes hd (hd.writeAt env kp b off).2 := by
  unfold writeAt
  split
  · split
    · exact (Goes.same (dm := { hd.dm with buf := some [] }) rfl).trans (write_goes _)
    · exact write_goes _
  split
  · split
    · exact .refl _
    · rename_i size _
      have h1 : Goes hd (if off > size then hd.expandSparse env kp (i64 (off - size)) else (.ok (), hd)).2 := by
        split
        · exact expandSparse_goes _
        · exact .refl _
      generalize (if off > size then hd.expandSparse env kp (i64 (off - size)) else (.ok (), hd)) = R at h1
      obtain ⟨r, hd1⟩ := R
      cases r with
      | error e => exact h1
      | ok u =>
        dsimp only
        have h2 := sync_goes (env := env) (kp := kp) (hd := hd1)
        generalize hd1.sync env kp = R at h2
        obtain ⟨r, hd2⟩ := R
        cases r with
        | error e => exact h1.trans h2
        | ok u => exact (h1.trans h2).trans ((Goes.same (dm := { hd2.dm with ws := u64 off }) rfl).trans (write_goes _))
  · exact write_goes _

theorem readOpen_cur (dm : DM) (pos : Int) : (dm.readOpen env pos).2.cur = dm.cur := by
  unfold DM.readOpen
  split
  · rfl
  · split
    split
    · rfl
    · split <;> rfl

theorem readPrep_cur (dm : DM) : (dm.readPrep env).2.cur = dm.cur := by
  unfold DM.readPrep
  split
  · rfl
  · exact readOpen_cur _ _

/-- Reading does no more to the node than `Sync` does. -/
theorem readN_cur (dm : DM) (k : Nat) : (dm.readN env k).2.cur = (dm.sync env).2.cur := by
  unfold DM.readN
  generalize dm.sync env = R
  obtain ⟨r, dm1⟩ := R
  cases r with
  | error e => rfl
  | ok u =>
    dsimp only
    have := readPrep_cur (env := env) dm1
    generalize dm1.readPrep env = P at this
    obtain ⟨p, dm2⟩ := P
    cases p with
    | error e => exact this
    | ok rd => exact this

theorem readN_goes (k : Nat) : Goes hd (hd.readN env kp k).2 := by
  refine sync_goes.trans (Goes.same (hd := (hd.sync env kp).2) ?_)
  rw [readN_cur, ← sync_erase (kp := kp)]

theorem seekTail_cur (dm : DM) (fi : Int) (new : UInt64) (pos off wh : Int) : (dm.seekTail env fi new pos off wh).2.cur =
    (if pos > fi then (dm.expandSparse env (i64 (pos - fi))).2 else dm).cur := by
  unfold DM.seekTail
  have e : (if pos > fi then (dm.expandSparse env (i64 (pos - fi))).2 else dm) =
      (if pos > fi then dm.expandSparse env (i64 (pos - fi)) else (.ok (), dm)).2 := by split <;> rfl
  rw [e]
  generalize (if pos > fi then dm.expandSparse env (i64 (pos - fi)) else (.ok (), dm)) = R
  obtain ⟨r, dm1⟩ := R
  cases r with
  | error e => rfl
  | ok u =>
    dsimp only
    split
    · rfl
    · rfl

theorem seekTail_goes (fi : Int) (new : UInt64) (pos off wh : Int) : Goes hd (hd.seekTail env kp fi new pos off wh).2 := by
  have h1 : Goes hd (if pos > fi then (hd.expandSparse env kp (i64 (pos - fi))).2 else hd) := by
    split
    · exact expandSparse_goes _
    · exact .refl _
  refine h1.trans (Goes.same ?_)
  rw [seekTail_cur]
  split
  · rw [← expandSparse_erase (kp := kp)]
  · rfl

theorem seek_goes (off wh : Int) : Goes hd (hd.seek env kp off wh).2 := by
  unfold seek
  have h1 := sync_goes (env := env) (kp := kp) (hd := hd)
  generalize hd.sync env kp = R at h1
  obtain ⟨r, hd1⟩ := R
  cases r with
  | error e => exact h1
  | ok u =>
    dsimp only
    split
    · exact h1
    split
    · exact h1
    · exact h1.trans (seekTail_goes _ _ _ _ _)

theorem truncate_goes (size : Int) : Goes hd (hd.truncate env kp size).2 := by
  unfold truncate
  have h1 := sync_goes (env := env) (kp := kp) (hd := hd)
  generalize hd.sync env kp = R at h1
  obtain ⟨r, hd1⟩ := R
  cases r with
  | error e => exact h1
  | ok u =>
    dsimp only
    split
    · exact h1
    split
    · exact h1
    split
    · exact h1.trans (expandSparse_goes _)
    refine h1.trans ?_
    generalize dagTruncate env hd1.dm.cur (u64 size) hd1.dm.svc = T
    obtain ⟨r, svc⟩ := T
    cases r with
    | error e => exact .same rfl
    | ok n =>
      dsimp only
      generalize svc.add env n = A
      obtain ⟨r, svc'⟩ := A
      cases r <;> exact .adopt _ _

theorem getNode_goes : Goes hd (hd.getNode env kp).2 := by
  unfold getNode
  have h1 := sync_goes (env := env) (kp := kp) (hd := hd)
  generalize hd.sync env kp = R at h1
  obtain ⟨r, hd1⟩ := R
  cases r with
  | error e => exact h1
  | ok u =>
    refine h1.trans (fun hi => ⟨⟨hi.links, hi.nodup, hi.lt, ?_⟩, ⟨Nat.le_refl _, ⟨_, rfl⟩, fun _ h => .inl h, fun _ _ _ => rfl, fun _ _ => ⟨rfl, rfl⟩⟩⟩)
    intro o ho
    rcases List.mem_append.mp ho with h | h
    · exact hi.held o h
    · split at h
      · rw [List.mem_singleton] at h
        subst h
        exact hi.lt
      · simp at h

theorem step_goes (op : MOp) : Goes hd (hd.step env kp op).2 := by
  cases op with
  | write b => exact write_goes _
  | writeAt b off => exact writeAt_goes _ _
  | read k => exact readN_goes _
  | seek off wh => exact seek_goes _ _
  | truncate s => exact truncate_goes _
  | sync => exact sync_goes
  | getNode =>
    have := getNode_goes (env := env) (kp := kp) (hd := hd)
    unfold step
    dsimp only
    generalize hd.getNode env kp = R at this
    obtain ⟨r, hd1⟩ := R
    cases r <;> exact this
  | size => exact .refl _
  | hasChanges => exact .refl _

theorem after_goes : ∀ (ops : List MOp) (hd : HDM), Goes hd (hd.after env kp ops)
  | [], _ => .refl _
  | op :: ops, hd => by rw [after]; exact (step_goes op).trans (after_goes ops _)

theorem new_inv {n : Node} {hd : HDM} (h : HDM.new n = .ok hd) : Inv hd := by
  unfold HDM.new at h
  split at h
  · cases h
  · rename_i dm hdm
    cases h
    have hcur : dm.cur = n := by
      cases n with
      | proto d ls b => rw [newDagModifier] at hdm; cases hdm; rfl
      | raw d b => rw [newDagModifier] at hdm; cases hdm; rfl
      | other d => simp [newDagModifier] at hdm
    refine ⟨?_, List.nodup_range, fun i hi => List.mem_range.mp hi, ?_⟩
    · dsimp only
      rw [hcur, store_map List.nodup_range (by simp)]
    · intro o ho i hi
      cases n with
      | proto d ls b =>
        rw [List.mem_singleton.mp ho] at hi
        exact List.mem_range.mp hi
      | raw d b => simp at ho
      | other d => simp at ho

/-! ### What cannot change -/

/-- No link object in use is changed. -/
def Keeps (hd hd' : HDM) : Prop := hd.next ≤ hd'.next ∧ ∀ i < hd.next, hd'.heap i = hd.heap i

theorem Keeps.refl (hd : HDM) : Keeps hd hd := ⟨Nat.le_refl _, fun _ _ => rfl⟩

theorem Keeps.trans {a b c : HDM} (h1 : Keeps a b) (h2 : Keeps b c) : Keeps a c :=
  ⟨Nat.le_trans h1.1 h2.1, fun i hi => by rw [h2.2 i (Nat.lt_of_lt_of_le hi h1.1), h1.2 i hi]⟩

theorem Keeps.adopt (dm : DM) (keep : Nat) : Keeps hd (hd.adopt dm keep) := by
  refine ⟨Nat.le_add_right _ _, fun i hi => ?_⟩
  unfold HDM.adopt
  dsimp only
  refine store_of_not_mem (fun hm => ?_)
  rw [List.mem_range'_1] at hm
  omega

theorem views_of_heap {hd hd' : HDM} (hi : Inv hd) (h : Ev hd hd') (hh : ∀ o ∈ hd.held, ∀ i ∈ o.links, hd'.heap i = hd.heap i) :
    ∃ more, hd'.views = hd.views ++ more := by
  obtain ⟨m, e⟩ := h.held
  refine ⟨m.map (Obj.view hd'.heap), ?_⟩
  rw [views, e, List.map_append, views]
  congr 1
  refine List.map_congr_left (fun o ho => ?_)
  simp only [Obj.view, Node.proto.injEq, true_and, and_true]
  exact List.map_congr_left (hh o ho)

theorem Keeps.views {hd hd' : HDM} (hk : Keeps hd hd') (hi : Inv hd) (h : Ev hd hd') : ∃ more, hd'.views = hd.views ++ more :=
  views_of_heap hi h (fun o ho i hm => hk.2 i (hi.held o ho i hm))

theorem expandSparse_keeps (size : Int) : Keeps hd (hd.expandSparse env kp size).2 := by
  unfold expandSparse
  split <;> exact .adopt _ _

theorem sync_none (h : hd.dm.buf = none) : hd.sync env kp = (.ok (), hd) := by
  unfold sync; rw [h]

theorem seekTail_keeps (fi : Int) (new : UInt64) (pos off wh : Int) : Keeps hd (hd.seekTail env kp fi new pos off wh).2 := by
  have h1 : Keeps hd (if pos > fi then (hd.expandSparse env kp (i64 (pos - fi))).2 else hd) := by
    split
    · exact expandSparse_keeps _
    · exact .refl _
  exact h1

/-- Without pending writes, only `Write` and `WriteAt` can change what the client holds. -/
theorem step_keeps (hb : hd.dm.buf = none) (op : MOp) (hop : ∀ b, op ≠ .write b) (hop' : ∀ b off, op ≠ .writeAt b off) : Keeps hd (hd.step env kp op).2 := by
  cases op with
  | write b => exact absurd rfl (hop b)
  | writeAt b off => exact absurd rfl (hop' b off)
  | read k =>
    have : Keeps hd (hd.sync env kp).2 := by rw [sync_none hb]; exact .refl _
    exact this
  | seek off wh =>
    unfold step seek
    rw [sync_none hb]
    dsimp only
    split
    · exact .refl _
    split
    · exact .refl _
    · exact seekTail_keeps _ _ _ _ _
  | truncate s =>
    unfold step truncate
    rw [sync_none hb]
    dsimp only
    split
    · exact .refl _
    split
    · exact .refl _
    split
    · exact expandSparse_keeps _
    generalize dagTruncate env hd.dm.cur (u64 s.toInt) hd.dm.svc = T
    obtain ⟨r, svc⟩ := T
    cases r with
    | error e => exact .refl _
    | ok n =>
      dsimp only
      generalize svc.add env n = A
      obtain ⟨r, svc'⟩ := A
      cases r <;> exact .adopt _ _
  | sync => unfold step; rw [sync_none hb]; exact .refl _
  | getNode => unfold step getNode; rw [sync_none hb]; exact .refl _
  | size => exact .refl _
  | hasChanges => exact .refl _

/-! ### Writing at the end -/

theorem modifyLinks_end (env : Env) : ∀ (ls : List Link) (cur off : UInt64) (buf : Bytes) (svc : Svc) (c : Bytes),
    SizesTrueL ls → contentL ls = some c → cur.toNat + c.length < 2 ^ 64 → cur.toNat + c.length ≤ off.toNat →
    (modifyLinks env (ls.map (fun l => UInt64.ofNat (contentLen l.target))) ls cur off buf svc).2.1 = ls
  | [], _, _, _, _, _, _, _, _, _ => by rw [List.map_nil, modifyLinks]
  | .mk nm sz child :: ls, cur, off, buf, svc, c, hs, hc, hl, ho => by
    obtain ⟨hs1, hs2⟩ := hs
    obtain ⟨a, ha⟩ := sizesTrue_content hs1
    obtain ⟨b, hb⟩ := sizesTrueL_content hs2
    simp only [contentL, ha, hb, Option.some.injEq] at hc
    subst hc
    rw [List.length_append] at hl ho
    have hadd : (cur + UInt64.ofNat (contentLen child)).toNat = cur.toNat + a.length := by
      rw [contentLen_of ha]; exact uadd rfl (by omega)
    rw [List.map_cons, modifyLinks]
    rw [if_neg (by
      intro h
      have := UInt64.lt_iff_toNat_lt.mp h
      simp only [Link.target] at this
      rw [hadd] at this
      omega)]
    have := modifyLinks_end env ls (cur + UInt64.ofNat (contentLen (Link.mk nm sz child).target)) off buf svc b hs2 hb
      (by simp only [Link.target]; omega) (by simp only [Link.target]; omega)
    generalize modifyLinks env (ls.map (fun l => UInt64.ofNat (contentLen l.target))) ls (cur + UInt64.ofNat (contentLen (Link.mk nm sz child).target)) off buf svc = R at this
    obtain ⟨r, ls', b', s'⟩ := R
    exact congrArg (_ :: ·) this

/-- At the end of the file, nothing is changed in place. -/
theorem modifyDag_end (n : Node) (off : UInt64) (buf : Bytes) (svc : Svc) (c : Bytes) (hs : SizesTrue n) (hc : content n = some c)
    (hl : c.length < 2 ^ 64) (ho : c.length ≤ off.toNat) : (modifyDag env n off buf svc).2.1.links = n.links := by
  cases n with
  | raw d b => rw [modifyDag]; split; · rfl
               dsimp only; split <;> rfl
  | other d => rw [modifyDag]
  | proto d ls b =>
    cases ls with
    | nil =>
      rw [modifyDag]
      split
      · rfl
      · split
        · rfl
        · dsimp only
          split
          · rfl
          · split <;> rfl
    | cons l ls =>
      simp only [SizesTrue] at hs
      obtain ⟨m, hm, hf, hd, hb, hfs, hsl⟩ := hs
      simp only [content] at hc
      have := modifyLinks_end env (l :: ls) 0 off buf svc c hsl hc (by simpa using hl) (by simpa using ho)
      rw [modifyDag]
      simp only [FSNode.fromBytes, hm, FSNode.blockSizes, hb]
      generalize modifyLinks env ((l :: ls).map (fun l => UInt64.ofNat (contentLen l.target))) (l :: ls) 0 off buf svc = R at this
      obtain ⟨r, ls', b', s'⟩ := R
      cases r with
      | some e => exact this
      | none =>
        dsimp only
        generalize s'.add env (.proto d ls' b) = A
        obtain ⟨a, s''⟩ := A
        cases a <;> exact this

theorem store_self {hd : HDM} (hi : Inv hd) {ls : List Link} (h : ls = hd.dm.cur.links) : store hd.heap hd.cells ls = hd.heap := by
  funext i
  by_cases hm : i ∈ hd.cells
  · have hl : hd.cells.length = ls.length := by rw [h, hi.links, List.length_map]
    have := store_map (heap := hd.heap) hi.nodup hl
    rw [h] at this ⊢
    rw [hi.links] at this ⊢
    exact List.map_inj_left.mp this i hm
  · exact store_of_not_mem hm

theorem syncModify_keeps (hi : Inv hd) {c : Bytes} (hs : SizesTrue hd.dm.cur) (hc : content hd.dm.cur = some c)
    (hl : c.length < 2 ^ 64) (ho : c.length ≤ hd.dm.ws.toNat) (n : Nat) : Keeps hd (hd.syncModify env n).2 := by
  have hf := modifyDag_end (env := env) hd.dm.cur hd.dm.ws (hd.dm.buf.getD []) hd.dm.svc c hs hc hl ho
  unfold syncModify
  generalize modifyDag env hd.dm.cur hd.dm.ws (hd.dm.buf.getD []) hd.dm.svc = R at hf
  obtain ⟨r, n', rest, svc⟩ := R
  have he := store_self hi hf
  cases r with
  | error e => dsimp only; rw [he]; exact .refl _
  | ok k =>
    dsimp only
    rw [he]
    generalize svc.get env k = G
    obtain ⟨g, svc'⟩ := G
    cases g with
    | error e => exact .adopt _ _
    | ok u => exact (Keeps.adopt _ _).trans (.adopt _ _)

theorem sync_keeps {root : Node} {f : F} (hi : Inv hd) (hR : R0 root True hd.dm f) (hw : f.c.length ≤ f.ws) :
    Keeps hd (hd.sync env kp).2 := by
  have hlc := hR.lenc
  have hlw := hR.lenw
  unfold sync
  split
  · exact .refl _
  rename_i buf hbuf
  have hi0 : Inv { hd with dm := { hd.dm with read := none } } := ⟨hi.links, hi.nodup, hi.lt, hi.held⟩
  have h0 : Keeps hd { hd with dm := { hd.dm with read := none } } := .refl _
  refine h0.trans ?_
  have hR0 : R0 root True ({ hd with dm := { hd.dm with read := none } } : HDM).dm f := hR.congr rfl rfl rfl rfl rfl
  clear h0
  have hws : ({ hd with dm := { hd.dm with read := none } } : HDM).dm.ws = hd.dm.ws := rfl
  dsimp only
  rw [fileSize_true hR.sizes hR.cont]
  dsimp only
  have hlen : (UInt64.ofNat f.c.length).toNat = f.c.length := by rw [UInt64.toNat_ofNat', Nat.mod_eq_of_lt (by omega)]
  split
  · rename_i hlt
    generalize ({ hd with dm := { hd.dm with read := none } } : HDM) = h0 at hi0 hR0 hws
    have hlt' : f.c.length < f.ws := by rw [← hlen, ← hR.ws]; exact UInt64.lt_iff_toNat_lt.mp hlt
    have hsz : s64 (hd.dm.ws - UInt64.ofNat f.c.length) = ((f.ws - f.c.length : Nat) : Int) := by
      unfold s64; rw [usub (by rw [hlen, hR.ws]; omega), hlen, hR.ws, Reader.i64_id (by omega) (by omega)]
    rw [hsz]
    have h1 := expandSparse_keeps (env := env) (kp := kp) (hd := h0) ((f.ws - f.c.length : Nat) : Int)
    have h2 := expandSparse_goes (env := env) (kp := kp) (hd := h0) ((f.ws - f.c.length : Nat) : Int) hi0
    have h3 := expandSparse_erase (env := env) (kp := kp) (hd := h0) ((f.ws - f.c.length : Nat) : Int)
    have h4 := expand_sim (env := env) hR0 (f.ws - f.c.length) (by omega) trivial
    rw [← h3] at h4
    generalize expandSparse env kp h0 ((f.ws - f.c.length : Nat) : Int) = R at h1 h2 h4
    obtain ⟨r, hd1⟩ := R
    cases r with
    | error e => exact h1
    | ok u =>
      rcases h4 with ⟨e, dm', e1, _⟩ | ⟨dm', e1, hR1, _⟩
      · cases e1
      · obtain rfl : hd1.dm = dm' := (Prod.mk.inj e1).2
        refine h1.trans (syncModify_keeps h2.1 hR1.sizes hR1.cont (by have := hR1.lenc; omega) ?_ _)
        rw [hR1.ws]
        simp only [F.expand, zeros, List.length_append, List.length_replicate]
        omega
  · exact syncModify_keeps hi0 hR0.sizes hR0.cont (by omega) (by rw [hR0.ws]; exact hw) _

/-- The next write will be at the end of the file, or further. -/
def AtEnd (root : Node) (B : Nat) (dm : DM) : Prop := ∃ f, R0 root True dm f ∧ f.Le B ∧ f.c.length ≤ f.ws

theorem flush_end {f : F} (h : f.c.length ≤ f.ws) : f.flush.c.length ≤ f.flush.ws := by
  rw [F.flush_len, F.flush_ws]
  split
  · omega
  · omega

theorem sync_end {root : Node} {B : Nat} (hsp : SplitOK env) (hi : Inv hd) (h : AtEnd root B hd.dm) :
    Keeps hd (hd.sync env kp).2 ∧ ((∃ a, (hd.sync env kp).1 = .ok a) → AtEnd root B (hd.sync env kp).2.dm) := by
  obtain ⟨f, hR, hle, hw⟩ := h
  refine ⟨sync_keeps hi hR hw, fun hr => ?_⟩
  have he := sync_erase (env := env) (kp := kp) hd
  obtain ⟨dm', e, hR', hle'⟩ := sync_any hsp hR hle (by rw [← he]; exact hr)
  rw [← he] at e
  rw [(Prod.mk.inj e).2]
  exact ⟨_, hR', hle', flush_end hw⟩

theorem write_end {root : Node} {B : Nat} (hsp : SplitOK env) (hi : Inv hd) (h : AtEnd root B hd.dm) (b : Bytes) (hB : B + b.length < 2 ^ 63) :
    Keeps hd (hd.write env kp b).2 ∧ ((∃ a, (hd.write env kp b).1 = .ok a) → AtEnd root (B + b.length) (hd.write env kp b).2.dm) := by
  obtain ⟨f, hR, hle, hw⟩ := h
  have hp : hd.dm.buf.getD [] = f.pend := by rw [hR.buf]; rfl
  have hle1 := hle.1
  have hle2 := hle.2.1
  have hle3 := hle.2.2
  have hR1 : R0 root True { hd.dm with read := none, buf := some (f.pend ++ b), cw := hd.dm.cw + UInt64.ofNat b.length }
      { f with buf := some (f.pend ++ b), cw := f.cw + b.length, rd := false } := by
    refine ⟨hR.sizes, hR.cont, hR.ws, ?_, rfl, hR.lenc, ?_, ?_, hR.grow, hR.store⟩
    · show (hd.dm.cw + UInt64.ofNat b.length).toNat = _
      rw [uadd rfl (by rw [hR.cw]; omega), hR.cw]
    · show f.ws + (f.pend ++ b).length < 2 ^ 63
      rw [List.length_append]; omega
    · show f.cw + b.length < 2 ^ 63
      omega
  have hA : AtEnd root (B + b.length) { hd.dm with read := none, buf := some (f.pend ++ b), cw := hd.dm.cw + UInt64.ofNat b.length } := by
    refine ⟨_, hR1, ⟨?_, ?_, ?_⟩, hw⟩
    · show f.c.length ≤ _; omega
    · show f.ws + (f.pend ++ b).length ≤ _; rw [List.length_append]; omega
    · show f.cw + b.length ≤ _; omega
  unfold write
  dsimp only
  rw [hp]
  split
  · have hi1 : Inv { hd with dm := { hd.dm with read := none, buf := some (f.pend ++ b), cw := hd.dm.cw + UInt64.ofNat b.length } } :=
      ⟨hi.links, hi.nodup, hi.lt, hi.held⟩
    have hk1 : Keeps hd { hd with dm := { hd.dm with read := none, buf := some (f.pend ++ b), cw := hd.dm.cw + UInt64.ofNat b.length } } := .refl _
    have := sync_end (kp := kp) hsp hi1 hA
    generalize sync env kp { hd with dm := { hd.dm with read := none, buf := some (f.pend ++ b), cw := hd.dm.cw + UInt64.ofNat b.length } } = R at this
    obtain ⟨r, hd2⟩ := R
    cases r with
    | error e => exact ⟨hk1.trans this.1, fun ⟨a, ha⟩ => by cases ha⟩
    | ok u => exact ⟨hk1.trans this.1, fun _ => this.2 ⟨(), rfl⟩⟩
  · exact ⟨.refl _, fun _ => hA⟩

end HDM
end Unixfs.Mod
