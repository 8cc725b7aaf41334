import Verif.Mod.FileLemmas
import Verif.Import.AppendLeaf

/-! # A modifier on a file that is a single block

The definitions in this file belong to proofs; they model no code.
-/

namespace Unixfs.Mod
open Unixfs Unixfs.Import Unixfs.Spec Unixfs.Props

variable {env : Env}

theorem cons_toLinks (c : Cfg) {ts : List T} (h : ts ≠ []) : ∃ l ls, T.toLinks c ts = l :: ls := by
  cases ts with
  | nil => exact absurd rfl h
  | cons t ts => exact ⟨_, _, rfl⟩

/-- `appendData` on a single block: the new chunks are all that is left. -/
theorem appendData_leaf {dm : DM} {d : Bytes} {b : Builder} (hcur : dm.cur = .proto d [] b) (hs : SizesTrue (.proto d [] b)) {chunks : List Bytes}
    {fin : Option Err} {k : Node} {s : Svc} (h : dm.appendData env chunks fin = (.ok k, s)) :
    fin = none ∧ (chunks ≠ [] → content k = some chunks.flatten) := by
  simp only [SizesTrue] at hs
  obtain ⟨msg, hu, hf, -, hb, -, -⟩ := hs
  unfold DM.appendData at h
  rw [hcur] at h
  simp only [Params.new, Bool.false_and, Bool.false_eq_true, if_false] at h
  split at h
  · cases h
  · rename_i n' db' hr
    cases h
    obtain ⟨ts, rfl, hch, he, hl⟩ := Trickle.append_leaf defaultLinksPerBlock (by decide) _ _ d b _ rfl
      (by intro h; simp at h) hu (IsFileMsg.isSome hf) (by simpa using hb) hr
    have hp : T.chunksL ts = chunks := by rw [hch]; simp [DB.pend]
    refine ⟨he, fun hne => ?_⟩
    have hts : ts ≠ [] := by rintro rfl; exact hne hp.symm
    obtain ⟨l, ls, hll⟩ := cons_toLinks (DB.cfg _ TRaw) hts
    rw [hll, content, ← hll]
    rw [content_toLinks (DB.cfg _ TRaw) (.inr rfl) _ (T.limL_of_chunks _ (by rw [hch]; exact hl)), hp]

/-- `appendData` on a raw block fails. -/
theorem appendData_raw {dm : DM} {d : Bytes} {b : Builder} (hcur : dm.cur = .raw d b) (chunks : List Bytes) (fin : Option Err) :
    ∃ s, dm.appendData env chunks fin = (.error .notProtobuf, s) := by
  unfold DM.appendData
  rw [hcur]
  simp only [Params.new, Bool.false_and, Bool.false_eq_true, if_false]
  exact ⟨_, rfl⟩

/-- A leaf is overwritten by a leaf. -/
theorem modifyDag_leaf {d : Bytes} {b : Builder} {off : UInt64} {buf rest : Bytes} {svc svc' : Svc} {k n : Node}
    (h : modifyDag env (.proto d [] b) off buf svc = (.ok k, n, rest, svc')) : ∃ d', k = .proto d' [] b := by
  rw [modifyDag] at h
  split at h
  · cases h
  · split at h
    · cases h
    · dsimp only at h
      split at h
      · cases h
      · split at h
        · cases h
        · cases h; exact ⟨_, rfl⟩

theorem modifyDag_raw {d : Bytes} {b : Builder} {off : UInt64} {buf rest : Bytes} {svc svc' : Svc} {k n : Node}
    (h : modifyDag env (.raw d b) off buf svc = (.ok k, n, rest, svc')) : ∃ d' b', k = .raw d' b' := by
  rw [modifyDag] at h
  split at h
  · cases h
  · dsimp only at h
    split at h
    · cases h
    · cases h; exact ⟨_, _, rfl⟩

/-- `Sync` of bytes that go beyond the end of a single block: only those beyond the end are left. -/
theorem sync_leaf (hsp : SplitOK env) {dm dm' : DM} {d : Bytes} {b : Builder} {c buf : Bytes} {a : Unit} (hcur : dm.cur = .proto d [] b)
    (hs : SizesTrue (.proto d [] b)) (hc : content (.proto d [] b) = some c) (hl : c.length < 2 ^ 64) (hb : dm.buf = some buf)
    (ho : dm.ws.toNat ≤ c.length) (hgt : c.length < dm.ws.toNat + buf.length) (h : dm.sync env = (.ok a, dm')) :
    content dm'.cur = some (buf.drop (c.length - dm.ws.toNat)) ∧ dm'.buf = none := by
  rw [DM.sync, hb] at h
  dsimp only at h
  rw [hcur, fileSize_true hs hc] at h
  dsimp only at h
  rw [if_neg (by rw [UInt64.lt_iff_toNat_lt, UInt64.toNat_ofNat', Nat.mod_eq_of_lt hl]; omega)] at h
  rw [DM.syncModify] at h
  simp only [hb, hcur, Option.getD_some] at h
  have hm := modifyDag_spec env _ dm.ws buf dm.svc c hs hc hl ho
  generalize hR : modifyDag env (.proto d [] b) dm.ws buf dm.svc = R at hm h
  obtain ⟨r, n', rest, s1⟩ := R
  cases r with
  | error e => cases h
  | ok k =>
    obtain ⟨d', rfl⟩ := modifyDag_leaf hR
    have hrest : rest = buf.drop (c.length - dm.ws.toNat) := hm.rest
    have hne : rest ≠ [] := by rw [hrest]; intro e; have := congrArg List.length e; simp at this; omega
    dsimp only at h
    split at h
    · cases h
    · rw [DM.syncTail] at h
      simp only [Option.getD_some] at h
      rw [if_neg (by simpa using hne)] at h
      split at h
      · cases h
      · rename_i k svc hap
        split at h
        · cases h
        · cases h
          obtain ⟨hn, hcont⟩ := appendData_leaf (by rfl) hm.sizes hap
          have hfl := (hsp rest).1 hn
          refine ⟨?_, rfl⟩
          rw [← hrest, ← hfl]
          exact hcont (by intro e; rw [e] at hfl; exact hne hfl.symm)

/-- `Sync` of bytes that go beyond the end of a raw block fails. -/
theorem sync_raw {dm dm' : DM} {d : Bytes} {b : Builder} {buf : Bytes} {a : Unit} (hcur : dm.cur = .raw d b)
    (hl : d.length < 2 ^ 64) (hb : dm.buf = some buf)
    (ho : dm.ws.toNat ≤ d.length) (hgt : d.length < dm.ws.toNat + buf.length) (h : dm.sync env = (.ok a, dm')) : False := by
  rw [DM.sync, hb] at h
  dsimp only at h
  rw [hcur, fileSize] at h
  dsimp only at h
  rw [if_neg (by rw [UInt64.lt_iff_toNat_lt, UInt64.toNat_ofNat', Nat.mod_eq_of_lt hl]; omega)] at h
  rw [DM.syncModify] at h
  simp only [hb, hcur, Option.getD_some] at h
  have hm := modifyDag_spec env (.raw d b) dm.ws buf dm.svc d trivial rfl hl ho
  generalize hR : modifyDag env (.raw d b) dm.ws buf dm.svc = R at hm h
  obtain ⟨r, n', rest, s1⟩ := R
  cases r with
  | error e => cases h
  | ok k =>
    obtain ⟨d', b', rfl⟩ := modifyDag_raw hR
    have hrest : rest = buf.drop (d.length - dm.ws.toNat) := hm.rest
    have hne : rest ≠ [] := by rw [hrest]; intro e; have := congrArg List.length e; simp at this; omega
    dsimp only at h
    split at h
    · cases h
    · rw [DM.syncTail] at h
      simp only [Option.getD_some] at h
      rw [if_neg (by simpa using hne)] at h
      rename_i svc _
      obtain ⟨s, hs⟩ := appendData_raw (env := env) (dm := { dm with read := none, cur := .raw d' b', buf := some rest, svc := svc }) rfl (env.split rest).1 (env.split rest).2
      rw [hs] at h
      cases h

end Unixfs.Mod
