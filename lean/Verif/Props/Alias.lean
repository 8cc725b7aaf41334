import Verif.Mod.AliasLemmas
import Verif.Props.Mod

/-!
# C84: the nodes that the client holds are not changed by the modifier

`HDM.new root`: a modifier made from a node that the client goes on holding; `GetNode` adds to the nodes
held. `HDM.views` is what the client sees in them, in the order in which it got them. `kp` says how many
link objects are kept by an `Append` that fails; nothing depends on it.
-/

namespace Unixfs.Props
open Unixfs Unixfs.Mod Unixfs.Import Unixfs.Spec

variable {env : Env} {kp : Nat → Nat} {root : Node} {hd : HDM} {c : Bytes}

/-- From the state `a` to the later state `b`, no node that the client held has changed. -/
def HeldSame (a b : HDM) : Prop := b.views.take a.views.length = a.views

/-- What the client knows of a node without following its links: data, builder, and name and size of each
link. -/
def Surface (a b : Node) : Prop :=
  ∃ d bu ls ls', a = .proto d ls bu ∧ b = .proto d ls' bu ∧ ls'.map (fun l => (l.name, l.tsize)) = ls.map (fun l => (l.name, l.tsize))

/-- Calls that do not move the offset. -/
def StaysPut : MOp → Prop
  | .write _ | .sync | .getNode | .size | .hasChanges => True
  | _ => False

theorem heldSame_of {a b : HDM} (h : ∃ more, b.views = a.views ++ more) : HeldSame a b := by
  obtain ⟨m, e⟩ := h
  rw [HeldSame, e, List.take_left]

theorem inv_after (hn : HDM.new root = .ok hd) (ops : List MOp) : (hd.after env kp ops).Inv :=
  ((HDM.after_goes ops hd) (HDM.new_inv hn)).1

theorem after_append : ∀ (a b : List MOp) (hd : HDM), hd.after env kp (a ++ b) = (hd.after env kp a).after env kp b
  | [], _, _ => rfl
  | op :: a, b, hd => by rw [List.cons_append, HDM.after, after_append a b, HDM.after]

theorem forall₂_maps {α β : Type} {R : β → β → Prop} {f g : α → β} : ∀ {l : List α}, (∀ x ∈ l, R (f x) (g x)) → List.Forall₂ R (l.map f) (l.map g)
  | [], _ => .nil
  | x :: _, h => .cons (h x (by simp)) (forall₂_maps (fun y hy => h y (by simp [hy])))

/-- The results of the calls are those of `Mod/DagModifier.lean`. -/
theorem C84_same_results (hn : HDM.new root = .ok hd) (ops : List MOp) (op : MOp) :
    ∃ dm, newDagModifier root = .ok dm ∧ ((hd.after env kp ops).step env kp op).1 = ((dm.run env ops).2.step env op).1 := by
  unfold HDM.new at hn
  split at hn
  · cases hn
  · rename_i dm hdm
    refine ⟨dm, hdm, ?_⟩
    have h1 := HDM.step_erase (env := env) (kp := kp) (hd.after env kp ops) op
    rw [HDM.after_erase] at h1
    have h2 : hd.dm = dm := by cases hn; rfl
    rw [h2] at h1
    exact (Prod.mk.inj h1).1

example : ∃ dm hd, HDM.new wTen = .ok hd ∧ newDagModifier wTen = .ok dm ∧
    ((hd.after wEnv (fun _ => 0) [.write [88], .getNode]).step wEnv (fun _ => 0) (.read 3)).1 = ((dm.run wEnv [.write [88], .getNode]).2.step wEnv (.read 3)).1 := by
  obtain ⟨dm, h⟩ := C84_same_results (root := wTen) (env := wEnv) (kp := fun _ => 0) rfl [.write [88], .getNode] (.read 3)
  exact ⟨dm, _, rfl, h⟩

/-- C84 is false: the node that the client gave to `NewDagModifier`, and the node it got from `GetNode`
before the second write, change when the writes are flushed. `held` shows the contents of the nodes held,
in the order in which the client got them. -/
def held (r : Except Err HDM) (ops : List MOp) : List (Option Bytes) :=
  match r with
  | .ok hd => (hd.after wEnv (fun _ => 0) ops).views.map content
  | .error _ => []

theorem C84_violated :
    held (HDM.new wTen) [] = [some [48, 49, 50, 51, 52, 53, 54, 55, 56, 57]] ∧
    held (HDM.new wTen) [.write [88], .sync] = [some [88, 49, 50, 51, 52, 53, 54, 55, 56, 57]] ∧
    held (HDM.new wTen) [.write [88], .getNode] = [some [88, 49, 50, 51, 52, 53, 54, 55, 56, 57], some [88, 49, 50, 51, 52, 53, 54, 55, 56, 57]] ∧
    held (HDM.new wTen) [.write [88], .getNode, .write [89], .sync] =
      [some [88, 49, 50, 51, 52, 53, 54, 55, 56, 57], some [88, 89, 50, 51, 52, 53, 54, 55, 56, 57]] := by
  refine ⟨?_, ?_, ?_, ?_⟩ <;> decide +kernel

/-- Whatever the client calls, and whatever fails: the data, the builder, and the number, names and sizes
of the links of a node held are never changed. -/
theorem C84_surface_partial (hn : HDM.new root = .ok hd) (before later : List MOp) :
    List.Forall₂ Surface (hd.after env kp before).views ((hd.after env kp (before ++ later)).views.take (hd.after env kp before).views.length) := by
  rw [after_append]
  have hi := inv_after (env := env) (kp := kp) hn before
  generalize hd.after env kp before = a at hi
  obtain ⟨_, hE⟩ := HDM.after_goes (env := env) (kp := kp) later a hi
  generalize a.after env kp later = b at hE
  obtain ⟨m, e⟩ := hE.held
  rw [HDM.views, HDM.views, e, List.map_append, List.length_map, List.take_left' (by simp)]
  refine forall₂_maps (fun o ho => ?_)
  refine ⟨_, _, _, _, rfl, rfl, ?_⟩
  rw [List.map_map, List.map_map]
  exact List.map_congr_left (fun i hm => by
    have := hE.shape i (hi.held o ho i hm)
    simp only [Function.comp_apply, this.1, this.2])

example : ∃ hd, HDM.new wTen = .ok hd ∧ List.Forall₂ Surface (hd.after wEnv (fun _ => 0) [.write [88], .getNode]).views
    ((hd.after wEnv (fun _ => 0) ([.write [88], .getNode] ++ [.write [89], .truncate 3])).views.take (hd.after wEnv (fun _ => 0) [.write [88], .getNode]).views.length) :=
  ⟨_, rfl, C84_surface_partial (root := wTen) rfl _ _⟩

/-- A node is changed at most once: if there are pending writes and `Sync` flushes them, the nodes held at
that time are never changed afterwards. -/
theorem C84_frozen_partial (hn : HDM.new root = .ok hd) (before later : List MOp)
    (hp : (hd.after env kp before).dm.hasChanges = true) (hs : ((hd.after env kp before).step env kp .sync).1.err = none) :
    let synced := hd.after env kp (before ++ [.sync])
    (hd.after env kp before).views.length ≤ synced.views.length ∧
    ((synced.after env kp later).views.take (hd.after env kp before).views.length) = synced.views.take (hd.after env kp before).views.length := by
  intro synced
  have hi := inv_after (env := env) (kp := kp) hn before
  have e1 : synced = ((hd.after env kp before).sync env kp).2 := by
    show hd.after env kp (before ++ [.sync]) = _
    rw [after_append]; rfl
  rw [e1]
  clear e1 synced
  generalize hd.after env kp before = a at hi hp hs
  obtain ⟨hi1, hE1⟩ := HDM.sync_goes (env := env) (kp := kp) (hd := a) hi
  have hfresh := HDM.sync_fresh (env := env) (kp := kp) hi hp (unit_ok hs)
  generalize (a.sync env kp).2 = b at hi1 hE1 hfresh
  obtain ⟨_, hE2⟩ := HDM.after_goes (env := env) (kp := kp) later b hi1
  generalize b.after env kp later = d at hE2
  obtain ⟨m, e⟩ := hE1.held
  obtain ⟨m', e'⟩ := hE2.held
  refine ⟨by simp [HDM.views, e], ?_⟩
  rw [HDM.views, HDM.views, HDM.views, e', e, List.map_append, List.map_append, List.map_append, List.append_assoc, List.length_map,
    List.take_left' (by simp), List.take_left' (by simp)]
  refine List.map_congr_left (fun o ho => ?_)
  simp only [Obj.view, Node.proto.injEq, true_and, and_true]
  refine List.map_congr_left (fun i hm => ?_)
  have hlt := hi.held o ho i hm
  exact hE2.heap i (Nat.lt_of_lt_of_le hlt hE1.next) (fun hc => by have := hfresh i hc; omega)

example : ∃ hd, HDM.new wTen = .ok hd ∧
    ((hd.after wEnv (fun _ => 0) ([.write [88], .getNode, .write [89]] ++ [.sync])).after wEnv (fun _ => 0) [.write [90], .truncate 3]).views.take
        (hd.after wEnv (fun _ => 0) [.write [88], .getNode, .write [89]]).views.length =
      (hd.after wEnv (fun _ => 0) ([.write [88], .getNode, .write [89]] ++ [.sync])).views.take (hd.after wEnv (fun _ => 0) [.write [88], .getNode, .write [89]]).views.length :=
  ⟨_, rfl, (C84_frozen_partial (root := wTen) rfl [.write [88], .getNode, .write [89]] [.write [90], .truncate 3] (by decide +kernel) (by decide +kernel)).2⟩

/-- Without pending writes, no call except `Write` and `WriteAt` changes a node held: not `Read`, `Seek`,
`Truncate`, whether they succeed or not. -/
theorem C84_clean_partial (hn : HDM.new root = .ok hd) (before : List MOp) (op : MOp) (hp : (hd.after env kp before).dm.hasChanges = false)
    (hop : ∀ b, op ≠ .write b) (hop' : ∀ b off, op ≠ .writeAt b off) :
    HeldSame (hd.after env kp before) (hd.after env kp (before ++ [op])) := by
  have hi := inv_after (env := env) (kp := kp) hn before
  rw [after_append]
  generalize hd.after env kp before = a at hi hp
  have hb : a.dm.buf = none := by
    simp only [DM.hasChanges] at hp
    cases h : a.dm.buf with
    | none => rfl
    | some b => rw [h] at hp; cases hp
  exact heldSame_of ((HDM.step_keeps hb op hop hop').views hi ((HDM.step_goes op) hi).2)

example : ∃ hd, HDM.new wTen = .ok hd ∧ HeldSame (hd.after wEnv (fun _ => 0) [.write [88], .getNode]) (hd.after wEnv (fun _ => 0) ([.write [88], .getNode] ++ [.truncate 3])) :=
  ⟨_, rfl, C84_clean_partial (root := wTen) rfl _ _ (by decide +kernel) (by simp) (by simp)⟩

theorem stays_put (hsp : SplitOK env) : ∀ (later : List MOp) {a : HDM} {B : Nat}, a.Inv → HDM.AtEnd root B a.dm →
    (∀ op ∈ later, StaysPut op) → B + (later.map reachOf).sum < 2 ^ 63 → List.Forall₂ Fine later (a.dm.run env later).1 →
    HDM.Keeps a (a.after env kp later)
  | [], a, _, _, _, _, _, _ => .refl a
  | op :: later, a, B, hi, hA, hop, hB, hf => by
    simp only [List.map_cons, List.sum_cons] at hB
    rw [DM.run, ← HDM.step_erase (kp := kp) a op] at hf
    obtain _ | ⟨hf1, hf2⟩ := hf
    have hgo := HDM.step_goes (env := env) (kp := kp) op hi
    have key : HDM.Keeps a (a.step env kp op).2 ∧ HDM.AtEnd root (B + reachOf op) (a.step env kp op).2.dm := by
      have hop := hop op (by simp)
      obtain ⟨hf1, -⟩ := hf1
      cases op with
      | write b =>
        obtain ⟨h1, h2⟩ := HDM.write_end (kp := kp) hsp hi hA b (by simp only [reachOf] at hB; omega)
        obtain ⟨x, hx, _⟩ := num_ok (hf1.resolve_right (by simp))
        exact ⟨h1, h2 ⟨x, hx⟩⟩
      | sync =>
        obtain ⟨h1, h2⟩ := HDM.sync_end (kp := kp) hsp hi hA
        exact ⟨h1, h2 (unit_ok (hf1.resolve_right (by simp)))⟩
      | getNode =>
        obtain ⟨h1, h2⟩ := HDM.sync_end (kp := kp) hsp hi hA
        unfold HDM.step HDM.getNode at hf1 ⊢
        dsimp only at hf1 ⊢
        generalize a.sync env kp = R at h1 h2 hf1
        obtain ⟨r, b⟩ := R
        cases r with
        | error e => simp at hf1
        | ok u => exact ⟨h1, h2 ⟨(), rfl⟩⟩
      | size => exact ⟨.refl _, hA⟩
      | hasChanges => exact ⟨.refl _, hA⟩
      | writeAt b off => exact hop.elim
      | read k => exact hop.elim
      | seek off wh => exact hop.elim
      | truncate s => exact hop.elim
    rw [HDM.after]
    exact key.1.trans (stays_put hsp later hgo.1 key.2 (fun o ho => hop o (by simp [ho])) (by omega) hf2)

theorem seekTail_res {dm : DM} {fi : Int} {new : UInt64} {pos off wh x : Int} (h : (dm.seekTail env fi new pos off wh).1 = .ok x) : x = pos := by
  unfold DM.seekTail at h
  split at h
  · cases h
  · split at h
    · cases h; rfl
    · dsimp only at h
      split at h
      · cases h
      · cases h; rfl

theorem seek_end {dm : DM} {f : F} {x : Nat} (hsp : SplitOK env) (hR : R0 root True dm f) (hs : ∃ a, (dm.sync env).1 = .ok a)
    (h : (dm.seek env (0 : Int64).toInt 2).1 = .ok (x : Int)) : x = f.flush.c.length := by
  rcases sync_sim hsp hR (.inl trivial) with hf | ⟨dm', e, hR', _⟩
  · exact (not_failed hf hs).elim
  unfold DM.seek at h
  rw [e] at h
  dsimp only at h
  rw [hR'.size, F.flush_flush] at h
  have hlen := hR.flush_len
  simp only [DM.seekTo] at h
  have := seekTail_res h
  rw [show u64 (Int64.toInt 0) = 0 from by decide, UInt64.sub_zero, s64_of (by rw [u64_toNat (by omega) (by omega)]; omega), u64_toNat (by omega) (by omega)] at this
  omega

/-- Appending changes no node held: after a move to the end of a file that can be extended, `Write`, `Sync`
and `GetNode` leave alone all nodes held at the time of the move. -/
theorem C84_append_partial (hsp : SplitOK env) (hs : SizesTrue root) (hc : content root = some c) (hg : Ext root)
    (hn : HDM.new root = .ok hd) (before later : List MOp) (hnn : ∀ op ∈ before, NonNeg op) (hl : ∀ op ∈ later, StaysPut op)
    (hB : c.length + ((before ++ [MOp.seek 0 2] ++ later).map reachOf).sum < 2 ^ 63)
    (hf : List.Forall₂ Fine (before ++ [.seek 0 2] ++ later) (results env root (before ++ [.seek 0 2] ++ later))) :
    HeldSame (hd.after env kp (before ++ [.seek 0 2])) (hd.after env kp (before ++ [.seek 0 2] ++ later)) := by
  have hi := inv_after (env := env) (kp := kp) hn (before ++ [.seek 0 2])
  obtain ⟨dm, hdm, hW⟩ := W.new hs hc (by omega) hg
  have hdm' : hd.dm = dm := by
    unfold HDM.new at hn
    rw [hdm] at hn
    cases hn; rfl
  rw [results, hdm] at hf
  dsimp only at hf
  obtain ⟨hf1, hf3⟩ := fine_append env _ _ _ hf
  obtain ⟨hf1, hf2⟩ := fine_append env _ _ _ hf1
  simp only [List.map_append, List.sum_append, List.map_cons, List.map_nil, List.sum_cons, List.sum_nil, reachOf] at hB
  simp only [show (0 : Int64).toInt.natAbs = 0 from by decide, Nat.add_zero] at hB
  have hW1 := W.run hsp before hW hnn (by omega) hf1
  rw [after_append _ later]
  have hdm2 : (hd.after env kp (before ++ [.seek 0 2])).dm = (dm.run env (before ++ [.seek 0 2])).2 := by
    rw [HDM.after_erase, hdm']
  generalize hd.after env kp (before ++ [.seek 0 2]) = a at hi hdm2
  rw [← hdm2] at hf3
  have hA : HDM.AtEnd root (c.length + (before.map reachOf).sum) a.dm := by
    rw [hdm2, run_append]
    generalize (dm.run env before).2 = dm1 at hW1 hf2
    simp only [DM.run] at hf2 ⊢
    obtain _ | ⟨⟨h1, h2⟩, -⟩ := hf2
    obtain ⟨x, hx, hx'⟩ := num_ok (h1.resolve_right (by simp))
    obtain ⟨f, hR, hle⟩ := hW1
    have hsy := sync_of_seek ⟨x, hx⟩
    obtain ⟨y, f2, e1, -, hR2, e2, e3, e4, e5, e6⟩ := seek_any hsp hR hle _ _ (by rw [show (0 : Int64).toInt.natAbs = 0 from by decide]; omega) hsy
      ⟨x, hx, by rw [← hx']; exact h2⟩
    have hy : y = f.flush.c.length := seek_end hsp hR hsy e1
    refine ⟨f2, hR2, by simpa [show (0 : Int64).toInt.natAbs = 0 from by decide] using e6, ?_⟩
    rw [e2, e3, if_neg (by omega)]
    omega
  have hk := stays_put (kp := kp) hsp later hi hA hl (by omega) hf3
  exact heldSame_of (hk.views hi (HDM.after_goes later a hi).2)

/-! ### The hypotheses can be met -/

/-- A node taken before a write that is flushed is held, and is not the same as the one given. -/
example : ∃ hd, HDM.new wTen = .ok hd ∧ (hd.after wEnv (fun _ => 0) [.write [88], .getNode, .write [89]]).dm.hasChanges = true ∧
    ((hd.after wEnv (fun _ => 0) [.write [88], .getNode, .write [89]]).step wEnv (fun _ => 0) .sync).1.err = none ∧
    (hd.after wEnv (fun _ => 0) [.write [88], .getNode]).dm.hasChanges = false ∧ hd.views = [wTen] :=
  ⟨_, rfl, by decide +kernel, by decide +kernel, by decide +kernel, by decide +kernel⟩

/-- A history with an overwrite, then a move to the end and more writes. -/
example : List.Forall₂ Fine ([.write [88], .getNode] ++ [.seek 0 2] ++ [.write [1, 2], .sync, .write [3], .getNode])
    (results wEnv wTen ([.write [88], .getNode] ++ [.seek 0 2] ++ [.write [1, 2], .sync, .write [3], .getNode])) ∧
    held (HDM.new wTen) ([.write [88], .getNode] ++ [.seek 0 2] ++ [.write [1, 2], .sync, .write [3], .getNode]) =
      [some [88, 49, 50, 51, 52, 53, 54, 55, 56, 57], some [88, 49, 50, 51, 52, 53, 54, 55, 56, 57],
       some [88, 49, 50, 51, 52, 53, 54, 55, 56, 57, 1, 2, 3]] := by
  refine ⟨by decide +kernel, by decide +kernel⟩

end Unixfs.Props
