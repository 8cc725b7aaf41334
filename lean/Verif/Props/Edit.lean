import Verif.Mod.Edit
import Verif.Props.Mod

/-! # C71, C72: an edited file shares the blocks that did not change -/

namespace Unixfs.Props
open Unixfs Unixfs.Import Unixfs.Spec Unixfs.Mod

variable {env : Env} {root : Node} {c : Bytes} {ops : List MOp}

/-- `Sync` of a write inside the file. -/
theorem sync_edit {dm dm' : DM} {b : Bytes} {a : Unit} (hb : dm.buf = some b) (hne : b ≠ []) (hs : SizesTrue dm.cur) (hc : content dm.cur = some c)
    (hl : c.length < 2 ^ 63) (hle : dm.ws.toNat + b.length ≤ c.length) (h : dm.sync env = (.ok a, dm')) :
    Edited dm.ws.toNat (dm.ws.toNat + b.length) 0 dm.cur dm'.cur ∧ content dm'.cur = some (overlay c dm.ws.toNat b) := by
  have hp := List.length_pos_iff.mpr hne
  have hlen : (UInt64.ofNat c.length).toNat = c.length := by rw [UInt64.toNat_ofNat', Nat.mod_eq_of_lt (by omega)]
  unfold DM.sync at h
  simp only [hb, fileSize_true hs hc] at h
  rw [if_neg (by rw [UInt64.lt_iff_toNat_lt, hlen]; omega)] at h
  unfold DM.syncModify at h
  simp only [Option.getD_some] at h
  have hM := modifyDag_spec env dm.cur dm.ws b dm.svc c hs hc (by omega) (by omega)
  split at h
  · cases h
  · next k x rest svc hm =>
    rw [hm] at hM
    have hE := modifyDag_edit env dm.cur dm.ws b dm.svc c 0 k x rest svc hs hc (by omega) (by omega) hne hm
    have hrest : rest = [] := by
      rw [hM.rest]; simp only [writeInto]; exact List.drop_of_length_le (by omega)
    split at h
    · cases h
    · unfold DM.syncTail at h
      simp only [hrest, Option.getD_some, List.isEmpty_nil, if_true, Prod.mk.injEq, true_and] at h
      rw [← h]
      refine ⟨by simpa using hE, ?_⟩
      rw [← writeInto_overlay c dm.ws.toNat b (by omega), ← hM.rest, hrest, List.append_nil]
      exact hM.cont

/-- A `Write` inside the file followed by `GetNode`. -/
theorem write_edit {dm : DM} {b : Bytes} {n : Node} (hb : dm.buf = none) (hne : b ≠ []) (hs : SizesTrue dm.cur) (hc : content dm.cur = some c)
    (hl : c.length < 2 ^ 63) (hle : dm.ws.toNat + b.length ≤ c.length) (h1 : (MRes.num (dm.write env b).1).err = none)
    (h2 : ((dm.write env b).2.step env .getNode).1 = { node := some n }) :
    Edited dm.ws.toNat (dm.ws.toNat + b.length) 0 dm.cur n ∧ content n = some (overlay c dm.ws.toNat b) := by
  unfold DM.write at h1 h2
  simp only [hb, Option.getD_none, List.nil_append] at h1 h2
  split at h1
  · next hw =>
    rw [if_pos hw] at h2
    split at h1
    · simp [MRes.num] at h1
    · next dm' hS =>
      have hE := sync_edit (dm := { dm with read := none, buf := some b, cw := dm.cw + UInt64.ofNat b.length }) (dm' := dm') rfl hne hs hc hl hle hS
      rw [hS] at h2
      have hcl := sync_buf hS
      simp only [DM.step, DM.getNode, sync_clean hcl, MRes.mk.injEq, Option.some.injEq, true_and, and_true] at h2
      rw [← h2]; exact hE
  · next hw =>
    rw [if_neg hw] at h2
    simp only [DM.step, DM.getNode] at h2
    split at h2
    · next hS =>
      split at hS
      · cases hS
      · next dm2 hS' =>
        cases hS
        have hE := sync_edit (dm := { dm with read := none, buf := some b, cw := dm.cw + UInt64.ofNat b.length }) rfl hne hs hc hl hle hS'
        simp only [MRes.mk.injEq, Option.some.injEq, true_and, and_true] at h2
        rw [← h2]; exact hE
    · simp at h2

theorem seekTail_edit {d : DM} {fi : Int} {new : UInt64} {pos o w : Int} (h : pos ≤ fi) :
    (d.seekTail env fi new pos o w).2.cur = d.cur ∧ (d.seekTail env fi new pos o w).2.ws = new ∧ (d.seekTail env fi new pos o w).2.buf = d.buf := by
  unfold DM.seekTail
  rw [if_neg (by omega)]
  dsimp only
  split
  · exact ⟨rfl, rfl, rfl⟩
  · exact ⟨rfl, rfl, rfl⟩

theorem seek_edit {d : DM} {off : Int64} (k2 : d.buf = none) (hs : SizesTrue d.cur) (hc : content d.cur = some c) (hl : c.length < 2 ^ 63)
    (h0 : 0 ≤ off.toInt) (hle : off.toInt ≤ c.length) :
    (d.step env (.seek off 0)).2.cur = d.cur ∧ (d.step env (.seek off 0)).2.ws = u64 off.toInt ∧ (d.step env (.seek off 0)).2.buf = none := by
  have hpos : s64 (u64 off.toInt) = off.toInt := by
    rw [s64_of (by rw [u64_toNat h0 (by omega)]; omega), u64_toNat h0 (by omega)]; omega
  have hfs : fileSize d.cur = .ok (UInt64.ofNat c.length) := fileSize_true hs hc
  have hsz : d.size = .ok (c.length : Int) := by
    unfold DM.size
    rw [hfs, k2]
    simp only
    rw [s64_of (by rw [ofNat_toNat (by omega)]; exact hl), ofNat_toNat (by omega)]
  have hto : d.seekTo c.length off.toInt 0 = .ok (u64 off.toInt) := by
    unfold DM.seekTo
    rw [if_neg (by decide), if_pos rfl]
  have hst : (d.step env (.seek off 0)).2 = (d.seekTail env c.length (u64 off.toInt) (s64 (u64 off.toInt)) off.toInt 0).2 := by
    show (d.seek env off.toInt 0).2 = _
    unfold DM.seek
    rw [sync_clean k2]
    dsimp only
    rw [hsz]
    dsimp only
    rw [hto]
  rw [hst]
  obtain ⟨h1, h2, h3⟩ := seekTail_edit (env := env) (d := d) (fi := c.length) (new := u64 off.toInt) (pos := s64 (u64 off.toInt)) (o := off.toInt) (w := 0) (by omega)
  exact ⟨h1, h2, h3.trans k2⟩

/-- C71: after any history on any file with any DAG service, a write inside the file, to a place sought
before, keeps the tree and every leaf outside of the range. -/
theorem C71_write_shares {n0 n : Node} {off : Int64} {b : Bytes} {rs : List MRes} {r1 r2 : MRes}
    (h : results env root (ops ++ [.getNode, .seek off 0, .write b, .getNode]) = rs ++ [{ node := some n0 }, r1, r2, { node := some n }])
    (h2 : r2.err = none) (hs : SizesTrue n0) (hc : content n0 = some c) (hl : c.length < 2 ^ 63)
    (h0 : 0 ≤ off.toInt) (hb : b ≠ []) (hle : off.toInt + b.length ≤ c.length) :
    Edited off.toInt.toNat (off.toInt.toNat + b.length) 0 n0 n ∧ content n = some (overlay c off.toInt.toNat b) := by
  rcases new_cases root with ⟨dm, e⟩ | ⟨er, e⟩
  swap
  · simp [results, e] at h
  rw [(results_append _ _ e).1] at h
  replace h := (List.append_inj' h (by simp [DM.run])).2
  simp only [DM.run, List.cons.injEq, and_true] at h
  obtain ⟨g1, g2, g3, g4⟩ := h
  obtain ⟨k1, k2⟩ := getNode_inv g1
  generalize ((dm.run env ops).2.step env .getNode).2 = d at *
  subst k1
  have hseek := seek_edit (env := env) (off := off) k2 hs hc hl h0 (by omega)
  obtain ⟨j1, j2, j3⟩ := hseek
  generalize (d.step env (.seek off 0)).2 = d' at *
  have hw : d'.ws.toNat = off.toInt.toNat := by rw [j2, u64_toNat h0 (by omega)]
  rw [← j1, ← hw]
  simp only [DM.step] at g3
  refine write_edit j3 hb (by rw [j1]; exact hs) (by rw [j1]; exact hc) hl (by rw [hw]; omega) (by rw [g3]; exact h2) ?_
  simpa only [DM.step] using g4

/-- C71 for `WriteAt` on a new modifier. -/
theorem C71_writeAt_shares {n : Node} {off : Int64} {b : Bytes} {r1 : MRes}
    (h : results env root [.writeAt b off, .getNode] = [r1, { node := some n }])
    (h1 : r1.err = none) (hs : SizesTrue root) (hc : content root = some c) (hl : c.length < 2 ^ 63)
    (h0 : 0 ≤ off.toInt) (hb : b ≠ []) (hle : off.toInt + b.length ≤ c.length) :
    Edited off.toInt.toNat (off.toInt.toNat + b.length) 0 root n ∧ content n = some (overlay c off.toInt.toNat b) := by
  rcases new_cases root with ⟨dm, e⟩ | ⟨er, e⟩
  swap
  · simp [results, e] at h
  simp only [results, e, DM.run, List.cons.injEq, and_true] at h
  have hnew : dm.cur = root ∧ dm.ws = 0 ∧ dm.cw = 0 ∧ dm.buf = none := by
    unfold newDagModifier at e
    split at e <;> cases e <;> simp
  obtain ⟨e1, e2, e3, e4⟩ := hnew
  subst e1
  obtain ⟨g1, g2⟩ := h
  have hfs : fileSize dm.cur = .ok (UInt64.ofNat c.length) := fileSize_true hs hc
  have hsz : dm.size = .ok (c.length : Int) := by
    unfold DM.size
    rw [hfs, e4]
    simp only
    rw [s64_of (by rw [ofNat_toNat (by omega)]; exact hl), ofNat_toNat (by omega)]
  have hat : dm.writeAt env b off.toInt = ({ dm with ws := u64 off.toInt } : DM).write env b := by
    unfold DM.writeAt
    rw [if_neg (by rw [e4]; simp)]
    split
    · simp only [hsz]
      rw [if_neg (by omega)]
      simp only [sync_clean e4]
    · next hcw =>
      rw [not_not] at hcw
      have : ({ dm with ws := u64 off.toInt } : DM) = dm := by
        have hw : u64 off.toInt = dm.ws := by rw [hcw, e3, e2]
        rw [hw]
      rw [this]
  simp only [DM.step] at g1
  have hw : ({ dm with ws := u64 off.toInt } : DM).ws.toNat = off.toInt.toNat := u64_toNat h0 (by omega)
  rw [← hw]
  rw [hat] at g1
  refine write_edit (dm := { dm with ws := u64 off.toInt }) e4 hb hs hc hl (by rw [hw]; omega) (by rw [g1]; exact h1) ?_
  rw [← hat]
  simpa only [DM.step] using g2

/-- C72: after any history on any file with any DAG service, `Truncate` to a smaller size keeps every
leaf before the cut and shortens the one at the cut. -/
theorem C72_truncate_shares {n0 n : Node} {size : Int64} {rs : List MRes} {r1 : MRes}
    (h : results env root (ops ++ [.getNode, .truncate size, .getNode]) = rs ++ [{ node := some n0 }, r1, { node := some n }])
    (h1 : r1.err = none) (hs : SizesTrue n0) (hc : content n0 = some c) (hl : c.length < 2 ^ 63)
    (h0 : 0 ≤ size.toInt) (hlt : size.toInt < c.length) : CutAt size.toInt.toNat n0 n := by
  rcases new_cases root with ⟨dm, e⟩ | ⟨er, e⟩
  swap
  · simp [results, e] at h
  rw [(results_append _ _ e).1] at h
  replace h := (List.append_inj' h (by simp [DM.run])).2
  simp only [DM.run, List.cons.injEq, and_true] at h
  obtain ⟨g1, g2, g3⟩ := h
  obtain ⟨k1, k2⟩ := getNode_inv g1
  generalize ((dm.run env ops).2.step env .getNode).2 = d at *
  subst k1
  have hfs : fileSize d.cur = .ok (UInt64.ofNat c.length) := fileSize_true hs hc
  have hsz : d.size = .ok (c.length : Int) := by
    unfold DM.size
    rw [hfs, k2]
    simp only
    rw [s64_of (by rw [ofNat_toNat (by omega)]; exact hl), ofNat_toNat (by omega)]
  have hu : (u64 size.toInt).toNat = size.toInt.toNat := u64_toNat h0 (by omega)
  simp only [DM.step] at g2 g3
  unfold DM.truncate at g2 g3
  simp only [sync_clean k2, hsz] at g2 g3
  rw [if_neg (by omega), if_neg (by omega)] at g2 g3
  cases hT : dagTruncate env d.cur (u64 size.toInt) d.svc with
  | mk r svc1 =>
    rw [hT] at g2 g3
    cases r with
    | error e => rw [← g2] at h1; simp [MRes.unit] at h1
    | ok k =>
      have hL := dagTruncate_leaves env d.cur (u64 size.toInt) d.svc c k svc1 hs hc (by omega) (by omega) hT
      rw [hu] at hL
      dsimp only at g2 g3
      cases hA : svc1.add env k with
      | mk r2 svc2 =>
        rw [hA] at g2 g3
        cases r2 with
        | error e => rw [← g2] at h1; simp [MRes.unit] at h1
        | ok u =>
          dsimp only at g3
          simp only [DM.getNode] at g3
          rw [sync_clean (by exact k2)] at g3
          simp only [MRes.mk.injEq, Option.some.injEq, true_and, and_true] at g3
          rw [← g3]
          exact hL

/-! ### Concrete cases -/

/-- The success of a call, and the content of the leaves of the file when it returns one. -/
def leafView (r : MRes) : Bool × Option (List (Option Bytes)) := (r.err.isNone, r.node.map fun n => (leaves n).map content)

/-- The hypotheses of C71 are met (`wTen` is a file of two leaves of five bytes): all calls succeed, the two
`GetNode` return files, the first of them with the content before the write. -/
example : (results wEnv wTen ([.read 3] ++ [.getNode, .seek 6 0, .write [88, 89], .getNode])).map leafView =
    [(true, none), (true, some [some [48, 49, 50, 51, 52], some [53, 54, 55, 56, 57]]), (true, none), (true, none),
      (true, some [some [48, 49, 50, 51, 52], some [53, 88, 89, 56, 57]])] := by
  decide +kernel

example : (results wEnv wTen [.writeAt [88, 89] 4, .getNode]).map leafView =
    [(true, none), (true, some [some [48, 49, 50, 51, 88], some [89, 54, 55, 56, 57]])] := by
  decide +kernel

/-- The hypotheses of C72 are met. -/
example : (results wEnv wTen ([] ++ [.getNode, .truncate 7, .getNode])).map leafView =
    [(true, some [some [48, 49, 50, 51, 52], some [53, 54, 55, 56, 57]]), (true, none), (true, some [some [48, 49, 50, 51, 52], some [53, 54]])] := by
  decide +kernel

end Unixfs.Props
