import Verif.Props.SingleBlock
import Verif.Props.Range
import Verif.Mod.Need

/-! # C92: an edit needs only the blocks it touches

A file of which some blocks cannot be fetched can be edited all the same, as long as the blocks within
the range written to, the blocks on the way to the end (if the file is extended) or beside the cut (if
it is truncated), and the blocks just stored can be. -/

namespace Unixfs.Props
open Unixfs Unixfs.Import Unixfs.Spec Unixfs.Mod

variable {env : Env} {root : Node} {c : Bytes}

/-- No block reaches beyond the end of the file. -/
theorem at_within {x y : Node} {s : Nat} (h : At x s y) : ∀ {c : Bytes}, content x = some c → s + contentLen y ≤ c.length := by
  induction h with
  | here x => intro c hc; rw [contentLen_of hc]; omega
  | @child x y l pre post a s hl ha h ih =>
    intro c hc
    have hL : contentL x.links = some c := by
      cases x with
      | raw d b => simp [Node.links] at hl
      | other d => simp [Node.links] at hl
      | proto d ls b =>
        cases ls with
        | nil => simp [Node.links] at hl
        | cons l' ls => exact hc
    rw [hl] at hL
    obtain ⟨u, v, h1, h2, rfl⟩ := Reader.contentL_split hL
    rw [ha] at h1; cases h1
    obtain ⟨w, z, h3, h4, rfl⟩ := Reader.contentL_cons l post h2
    have := ih h3
    simp only [List.length_append]
    omega

theorem Refused.absurd {S : Node → Prop} {e : Err} (h : Refused env S e) (hput : ∀ t, env.put t = true) (hbud : ∀ t, env.budget t = none)
    (hget : ∀ t x, S x → env.get t x = true) : False := by
  rcases h with ⟨-, t, x, hx, hg⟩ | ⟨-, ⟨t, ht⟩ | ⟨t, ht⟩⟩
  · rw [hget t x hx] at hg; cases hg
  · rw [hput t] at ht; cases ht
  · exact ht (hbud t)

theorem sync_step_grew (d : DM) : d.svc.stored <+: (d.step env .sync).2.svc.stored :=
  sync_grew (env := env) (dm := d) (r := (d.sync env).1) (dm' := (d.sync env).2) rfl

theorem getNode_step_grew (d : DM) : d.svc.stored <+: (d.step env .getNode).2.svc.stored := by
  have h := sync_grew (env := env) (dm := d) (r := (d.sync env).1) (dm' := (d.sync env).2) rfl
  simp only [DM.step, DM.getNode]
  generalize d.sync env = R at h ⊢
  obtain ⟨r, d'⟩ := R
  cases r <;> exact h

/-- `Write`, `Sync` and `GetNode` within a file. -/
theorem write_needs (hsp : SplitOK env) {dm : DM} (hs : SizesTrue dm.cur) (hc : content dm.cur = some c) (hl : c.length < 2 ^ 63)
    (hb : dm.buf = none) {b : Bytes} (hne : b ≠ []) (ho : dm.ws.toNat ≤ c.length)
    (hg : Growable defaultLinksPerBlock dm.cur ∨ dm.ws.toNat + b.length ≤ c.length)
    (hput : ∀ t, env.put t = true) (hbud : ∀ t, env.budget t = none)
    (hsplit : c.length < dm.ws.toNat + b.length → (env.split (b.drop (c.length - dm.ws.toNat))).2 = none ∧ AllFit (env.split (b.drop (c.length - dm.ws.toNat))).1)
    (hget : ∀ t x, SyncNeeds dm.cur c.length dm.ws.toNat b x ∨ x ∈ (dm.run env [.write b, .sync, .getNode]).2.svc.stored → env.get t x = true) :
    ∃ n, (dm.run env [.write b, .sync, .getNode]).1 = [{ n := b.length }, {}, { node := some n }] ∧ content n = some (overlay c dm.ws.toNat b) ∧ SizesTrue n := by
  have hspec := sync_spec env hsp { dm with read := none, buf := some b, cw := dm.cw + UInt64.ofNat b.length } b rfl hs hc hl (by dsimp only; omega) hg
  have hneed := fun e dm' => sync_needs (e := e) (dm' := dm') hsp (dm := { dm with read := none, buf := some b, cw := dm.cw + UInt64.ofNat b.length }) rfl hs hc hl ho hne hg
  have hR : ∀ dm' r, DM.sync env { dm with read := none, buf := some b, cw := dm.cw + UInt64.ofNat b.length } = (r, dm') →
      (∀ e, r = .error e → dm'.svc.stored <+: (dm.run env [.write b, .sync, .getNode]).2.svc.stored) ∧
      (r = .ok () → dm'.buf = none → (dm.run env [.write b, .sync, .getNode]).1 = [{ n := b.length }, {}, { node := some dm'.cur }]) := by
    intro dm' r hsy
    by_cases hw : b.length > env.wbuf
    · have hwr : dm.step env (.write b) = (match (generalizing := false) r with | .error e => ({ err := some e }, dm') | .ok () => ({ n := b.length }, dm')) := by
        simp only [DM.step, DM.write, hb, Option.getD_none, List.nil_append]
        rw [if_pos hw, hsy]
        cases r <;> rfl
      rw [DM.run, hwr]
      refine ⟨?_, ?_⟩
      · rintro e rfl
        exact (sync_step_grew dm').trans (getNode_step_grew _)
      · rintro rfl h2
        simp only [DM.run, DM.step, sync_clean h2, DM.getNode]
        rfl
    · have hwr : dm.step env (.write b) = ({ n := b.length }, { dm with read := none, buf := some b, cw := dm.cw + UInt64.ofNat b.length }) := by
        simp only [DM.step, DM.write, hb, Option.getD_none, List.nil_append]
        rw [if_neg hw]
        rfl
      rw [DM.run, hwr]
      refine ⟨?_, ?_⟩
      · rintro e rfl
        simp only [DM.run]
        rw [show DM.step env { dm with read := none, buf := some b, cw := dm.cw + UInt64.ofNat b.length } .sync = ({ err := some e }, dm') by
          simp only [DM.step, hsy]; rfl]
        exact getNode_step_grew dm'
      · rintro rfl h2
        simp only [DM.run, DM.step, hsy, sync_clean h2, DM.getNode]
        rfl
  generalize hsy : DM.sync env { dm with read := none, buf := some b, cw := dm.cw + UInt64.ofNat b.length } = R at hspec hneed hR
  obtain ⟨r, dm'⟩ := R
  have hR := hR dm' r rfl
  cases r with
  | error e =>
    exfalso
    have hst := hR.1 e rfl
    rcases hneed e dm' rfl with h | ⟨hbig, h | ⟨-, h⟩⟩
    · exact Refused.absurd h hput hbud (fun t x hx => hget t x (hx.imp id (fun h => hst.subset h)))
    · rw [(hsplit hbig).1] at h; cases h
    · exact h (hsplit hbig).2
  | ok u =>
    obtain ⟨hC, -, -, h2, -⟩ := hspec
    exact ⟨dm'.cur, hR.2 rfl h2, hC.cont, hC.sizes⟩

/-- C92 for a write that begins within the file: it succeeds, whatever else cannot be fetched, if the
blocks that overlap with the range can be, and the blocks it stored itself, and, if it ends beyond the
end, the blocks on the path of last children. -/
theorem C92_write (hsp : SplitOK env) (hs : SizesTrue root) (hc : content root = some c) (hl : c.length < 2 ^ 63)
    (off : Int64) (h0 : 0 ≤ off.toInt) (ho : off.toInt ≤ c.length) (b : Bytes) (hne : b ≠ [])
    (hg : Ext root ∨ off.toInt.toNat + b.length ≤ c.length)
    (hput : ∀ t, env.put t = true) (hbud : ∀ t, env.budget t = none)
    (hsplit : c.length < off.toInt.toNat + b.length →
      (env.split (b.drop (c.length - off.toInt.toNat))).2 = none ∧ AllFit (env.split (b.drop (c.length - off.toInt.toNat))).1)
    (hget : ∀ t x, Overlaps root off.toInt.toNat (off.toInt.toNat + b.length) x ∨
      (c.length < off.toInt.toNat + b.length ∧ OnSpine defaultLinksPerBlock root x) ∨
      x ∈ storedBy env root [.seek off 0, .write b, .sync, .getNode] → env.get t x = true) :
    ∃ n, results env root [.seek off 0, .write b, .sync, .getNode] = [{ n := off.toInt }, { n := b.length }, {}, { node := some n }] ∧
      content n = some (overlay c off.toInt.toNat b) ∧ SizesTrue n := by
  have hu : (u64 off.toInt).toNat = off.toInt.toNat := u64_toNat h0 (by omega)
  obtain ⟨dm, hnew, hcur, hbuf, hrd⟩ : ∃ dm, newDagModifier root = .ok dm ∧ dm.cur = root ∧ dm.buf = none ∧ dm.read = none := by
    cases root with
    | raw d b => exact ⟨_, rfl, rfl, rfl, rfl⟩
    | other d => exact hs.elim
    | proto d ls b => exact ⟨_, rfl, rfl, rfl, rfl⟩
  subst hcur
  simp only [results, storedBy, hnew] at hget ⊢
  rw [DM.run, DM.step, seek_new (c := c) (new := u64 off.toInt) hs hc hl hbuf hrd rfl (by rw [hu]; omega)] at hget ⊢
  dsimp only at hget ⊢
  obtain ⟨n, h1, h2, h3⟩ := write_needs hsp (dm := { dm with cw := u64 off.toInt, ws := u64 off.toInt }) hs hc hl hbuf (b := b) hne
    (by dsimp only; rw [hu]; omega) (by dsimp only; rw [hu]; exact hg) hput hbud (by dsimp only; rw [hu]; exact hsplit)
    (by
      intro t x hx
      dsimp only [SyncNeeds] at hx
      rw [hu] at hx
      exact hget t x (or_assoc.mp hx))
  refine ⟨n, ?_, by rw [h2, hu], h3⟩
  rw [h1, hu, MRes.num, Int.toNat_of_nonneg h0]

/-! `exFile` is `[1, 2]` and `[3, 4]`, in two raw blocks. -/

/-- A DAG service that lost the first block of `exFile`. -/
def noFirst : Env := { wEnv with get := exHole }

/-- A DAG service that lost the second block of `exFile`. -/
def noSecond : Env := { wEnv with get := fun _ y => y != .raw [3, 4] .v0 }

theorem noFirst_ok : SplitOK noFirst ∧ (∀ t, noFirst.put t = true) ∧ ∀ t, noFirst.budget t = none :=
  ⟨wEnv_ok.1, fun _ => rfl, fun _ => rfl⟩

theorem exFile_ext : Ext exFile :=
  ⟨⟨{ typ := some TFile, filesize := some 4, blocksizes := [2, 2] }, by decide +kernel, rfl⟩, fun h => absurd h (by decide), fun h => absurd h (by decide), trivial⟩

theorem exFile_spine {x : Node} : ¬OnSpine defaultLinksPerBlock exFile x := by
  intro h
  cases h with
  | last _ hm => exact absurd hm (by decide)
  | down _ hm _ => exact absurd hm (by decide)

/-- Where the two blocks are. -/
theorem exFile_at {s : Nat} {d : Bytes} (h : At exFile s (.raw d .v0)) : (d = [1, 2] ∧ s = 0) ∨ (d = [3, 4] ∧ s = 2) := by
  have hleaf : ∀ {d d' : Bytes} {s : Nat}, At (.raw d .v0) s (.raw d' .v0) → d' = d ∧ s = 0 := by
    intro d d' s h
    cases h with
    | here => exact ⟨rfl, rfl⟩
    | child hl _ _ => simp [Node.links] at hl
  generalize hz : (Node.raw d .v0) = z at h
  unfold exFile at h
  cases h with
  | here => cases hz
  | child hl ha h =>
    rename_i l pre post a s'
    subst hz
    match pre with
    | [] =>
      simp only [Node.links, List.nil_append, List.cons.injEq] at hl
      simp only [contentL, Option.some.injEq] at ha
      subst ha
      rw [← hl.1] at h
      have := hleaf h
      exact .inl ⟨this.1, by rw [this.2]; rfl⟩
    | [l0] =>
      simp only [Node.links, List.cons_append, List.nil_append, List.cons.injEq] at hl
      rw [← hl.2.1] at h
      have := hleaf h
      rw [← hl.1] at ha
      simp only [contentL, makeLink, content, Option.some.injEq] at ha
      subst ha
      exact .inr ⟨this.1, by rw [this.2]; rfl⟩
    | l0 :: l1 :: pre => simp [Node.links] at hl

theorem exFile_right {a b : Nat} (ha : 2 ≤ a) {x : Node} (h : Overlaps exFile a b x) (t : Nat) : noFirst.get t x = true := by
  obtain ⟨s, h1, h2, h3⟩ := h
  show (x != .raw [1, 2] .v0) = true
  rw [bne_iff_ne]
  rintro rfl
  rcases exFile_at h1 with ⟨-, rfl⟩ | ⟨h, -⟩
  · have : contentLen (.raw [1, 2] .v0) = 2 := rfl
    omega
  · exact absurd h (by decide)

/-- With the first block lost, `[8, 9, 7]` can be written at offset 3, partly over the second block,
partly beyond the end. -/
example : ∃ n, results noFirst exFile [.seek 3 0, .write [8, 9, 7], .sync, .getNode] = [{ n := 3 }, { n := 3 }, {}, { node := some n }] ∧
    content n = some [1, 2, 3, 8, 9, 7] ∧ SizesTrue n :=
  C92_write noFirst_ok.1 exFile_sizes exFile_content (by decide) 3 (by decide) (by decide) [8, 9, 7] (by decide) (.inl exFile_ext) noFirst_ok.2.1 noFirst_ok.2.2
    (fun _ => ⟨rfl, by intro x hx; obtain rfl : x = [9, 7] := by simpa [noFirst, wEnv] using hx
                       decide⟩) (fun t x hx => by
      rcases hx with h | ⟨_, h⟩ | h
      · exact exFile_right (by decide) h t
      · exact absurd h exFile_spine
      · have : ∀ x ∈ storedBy noFirst exFile [.seek 3 0, .write [8, 9, 7], .sync, .getNode], (x != .raw [1, 2] .v0) = true := by decide +kernel
        exact this x h)

/-- The same write at offset 1 needs the first block, and fails without it. -/
example : (results noFirst exFile [.seek 1 0, .write [8, 9, 7], .sync]).map (fun r => r.err) = [none, none, some .notFound] := by decide +kernel

/-- C92 for a write within the file: only the blocks in its range, and those it stored itself. -/
theorem C92_overwrite (hsp : SplitOK env) (hs : SizesTrue root) (hc : content root = some c) (hl : c.length < 2 ^ 63)
    (off : Int64) (h0 : 0 ≤ off.toInt) (b : Bytes) (hne : b ≠ []) (ho : off.toInt + b.length ≤ c.length)
    (hput : ∀ t, env.put t = true) (hbud : ∀ t, env.budget t = none)
    (hget : ∀ t x, Overlaps root off.toInt.toNat (off.toInt.toNat + b.length) x ∨
      x ∈ storedBy env root [.seek off 0, .write b, .sync, .getNode] → env.get t x = true) :
    ∃ n, results env root [.seek off 0, .write b, .sync, .getNode] = [{ n := off.toInt }, { n := b.length }, {}, { node := some n }] ∧
      content n = some (overlay c off.toInt.toNat b) ∧ SizesTrue n := by
  refine C92_write hsp hs hc hl off h0 (by omega) b hne (.inr (by omega)) hput hbud (fun h => by omega) (fun t x hx => hget t x ?_)
  rcases hx with h | ⟨h, -⟩ | h
  · exact .inl h
  · omega
  · exact .inr h

/-- With the first block lost, byte 2 can be overwritten. -/
example : ∃ n, results noFirst exFile [.seek 2 0, .write [9], .sync, .getNode] = [{ n := 2 }, { n := 1 }, {}, { node := some n }] ∧
    content n = some [1, 2, 9, 4] ∧ SizesTrue n :=
  C92_overwrite noFirst_ok.1 exFile_sizes exFile_content (by decide) 2 (by decide) [9] (by decide) (by decide) noFirst_ok.2.1 noFirst_ok.2.2 (fun t x hx => by
    rcases hx with h | h
    · exact exFile_right (by decide) h t
    · have : ∀ x ∈ storedBy noFirst exFile [.seek 2 0, .write [9], .sync, .getNode], (x != .raw [1, 2] .v0) = true := by decide +kernel
      exact this x h)

/-- C92 for a write at the end of the file: none of its blocks except those on the path of last children. -/
theorem C92_append (hsp : SplitOK env) (hs : SizesTrue root) (hc : content root = some c) (hl : c.length < 2 ^ 63) (hg : Ext root)
    (off : Int64) (ho : off.toInt = c.length) (b : Bytes) (hne : b ≠ [])
    (hput : ∀ t, env.put t = true) (hbud : ∀ t, env.budget t = none) (hsplit : (env.split b).2 = none ∧ AllFit (env.split b).1)
    (hget : ∀ t x, OnSpine defaultLinksPerBlock root x ∨ x ∈ storedBy env root [.seek off 0, .write b, .sync, .getNode] → env.get t x = true) :
    ∃ n, results env root [.seek off 0, .write b, .sync, .getNode] = [{ n := off.toInt }, { n := b.length }, {}, { node := some n }] ∧
      content n = some (c ++ b) ∧ SizesTrue n := by
  obtain ⟨n, h1, h2, h3⟩ := C92_write hsp hs hc hl off (by omega) (by omega) b hne (.inl hg) hput hbud (fun _ => by rw [show c.length - off.toInt.toNat = 0 by omega]; exact hsplit) (fun t x hx => by
    rcases hx with ⟨s, h1, h2, h3⟩ | ⟨-, h⟩ | h
    · have := at_within h1 hc
      omega
    · exact hget t x (.inl h)
    · exact hget t x (.inr h))
  refine ⟨n, h1, ?_, h3⟩
  rw [h2, show off.toInt.toNat = c.length by omega]
  rw [overlay_past _ _ _ (Nat.le_refl _)]
  simp [zeros]

/-- With both blocks lost, the file can be extended. -/
example : ∃ n, results { wEnv with get := fun _ y => y != .raw [1, 2] .v0 && y != .raw [3, 4] .v0 } exFile [.seek 4 0, .write [5, 6], .sync, .getNode] =
      [{ n := 4 }, { n := 2 }, {}, { node := some n }] ∧ content n = some [1, 2, 3, 4, 5, 6] ∧ SizesTrue n :=
  C92_append (env := { wEnv with get := fun _ y => y != .raw [1, 2] .v0 && y != .raw [3, 4] .v0 }) wEnv_ok.1 exFile_sizes exFile_content (by decide) exFile_ext 4 (by decide) [5, 6] (by decide)
    (fun _ => rfl) (fun _ => rfl)
    ⟨rfl, by intro x hx; obtain rfl : x = [5, 6] := by simpa [wEnv] using hx
             decide⟩ (fun t x hx => by
      rcases hx with h | h
      · exact absurd h exFile_spine
      · have : ∀ x ∈ storedBy { wEnv with get := fun _ y => y != .raw [1, 2] .v0 && y != .raw [3, 4] .v0 } exFile [.seek 4 0, .write [5, 6], .sync, .getNode],
          (x != .raw [1, 2] .v0 && x != .raw [3, 4] .v0) = true := by decide +kernel
        exact this x h)

/-- C92 for `Truncate`: only the children, up to the cut, of the blocks that are cut. -/
theorem C92_truncate (hs : SizesTrue root) (hc : content root = some c) (hl : c.length < 2 ^ 63)
    (s : Int64) (h0 : 0 ≤ s.toInt) (hlt : s.toInt < c.length) (hput : ∀ t, env.put t = true) (hbud : ∀ t, env.budget t = none)
    (hget : ∀ t x, BesideCut root s.toInt.toNat x → env.get t x = true) :
    ∃ n, results env root [.truncate s, .getNode] = [{}, { node := some n }] ∧ content n = some (c.take s.toInt.toNat) ∧ SizesTrue n := by
  have hu : (u64 s.toInt).toNat = s.toInt.toNat := u64_toNat h0 (by omega)
  obtain ⟨dm, hnew, hcur, hbuf, hrd⟩ : ∃ dm, newDagModifier root = .ok dm ∧ dm.cur = root ∧ dm.buf = none ∧ dm.read = none := by
    cases root with
    | raw d b => exact ⟨_, rfl, rfl, rfl, rfl⟩
    | other d => exact hs.elim
    | proto d ls b => exact ⟨_, rfl, rfl, rfl, rfl⟩
  subst hcur
  simp only [results, hnew]
  have hfs : s64 (UInt64.ofNat c.length) = c.length := by
    rw [s64_of] <;> rw [UInt64.toNat_ofNat', Nat.mod_eq_of_lt (by omega)]
    exact hl
  have hsz : dm.size = .ok (c.length : Int) := by
    rw [DM.size, fileSize_true hs hc]
    dsimp only
    rw [hbuf]
    dsimp only
    rw [hfs]
  have hT := dagTruncate_spec env dm.cur (u64 s.toInt) dm.svc c hs hc (by omega) (by rw [hu]; omega)
  have hN := dagTruncate_needs env dm.cur (u64 s.toInt) dm.svc c hs hc (by omega) (by rw [hu]; omega)
  simp only [DM.run, DM.step, DM.truncate]
  rw [sync_clean hbuf]
  dsimp only
  rw [hsz]
  dsimp only
  rw [if_neg (by omega), if_neg (by omega)]
  generalize dagTruncate env dm.cur (u64 s.toInt) dm.svc = R at hT hN ⊢
  obtain ⟨r, s1⟩ := R
  cases r with
  | error e =>
    exfalso
    exact Refused.absurd (hN e s1 rfl) hput hbud (fun t x hx => hget t x (by rw [hu] at hx; exact hx))
  | ok k =>
    dsimp only
    rw [Svc.add, if_pos (hput _)]
    dsimp only
    rw [DM.getNode, sync_clean (by exact hbuf)]
    have := hT.cont
    rw [hu] at this
    exact ⟨k, rfl, this, hT.sizes⟩

/-- With the second block lost, the file can be cut to one byte. -/
example : ∃ n, results noSecond exFile [.truncate 1, .getNode] = [{}, { node := some n }] ∧ content n = some [1] ∧ SizesTrue n :=
  C92_truncate exFile_sizes exFile_content (by decide) 1 (by decide) (by decide) (fun _ => rfl) (fun _ => rfl) (fun t x hx => by
    obtain ⟨p, i, pre, l, post, a, h1, h2, h3, h4, h5, h6, rfl⟩ := hx
    have hat := h1.snoc h4 h5
    show (l.target != .raw [3, 4] .v0) = true
    rw [bne_iff_ne]
    intro he
    rw [he] at hat
    rcases exFile_at hat with ⟨h, -⟩ | ⟨-, h⟩
    · exact absurd h (by decide)
    · rw [h] at h6
      exact absurd h6 (by decide))

end Unixfs.Props
