import Verif.Mod.Hist

/-!
# A `Sync` that could not fetch a block and stored nothing

Helper lemmas for C63.

The definitions in this file belong to proofs; they model no code.
-/

namespace Unixfs.Mod
open Unixfs Unixfs.Spec

variable {env : Env}

theorem svc_add {n : Node} {s : Svc} {r : Except Err Unit} {s' : Svc} (h : s.add env n = (r, s')) :
    (r = .ok () ∧ s'.stored.length = s.stored.length + 1) ∨ (r = .error .addFailed ∧ s'.stored = s.stored) := by
  rw [Svc.add] at h
  split at h <;> cases h
  · exact .inl ⟨rfl, by simp⟩
  · exact .inr ⟨rfl, rfl⟩

theorem svc_get {n : Node} {s : Svc} {r : Except Err Unit} {s' : Svc} (h : s.get env n = (r, s')) : s'.stored = s.stored := by
  rw [Svc.get] at h
  exact (congrArg (·.2.stored) h).symm

theorem getBytes_nf {fs : FSNode} (h : fs.getBytes = .error .notFound) : False := by
  unfold FSNode.getBytes Pb.Data.marshal at h
  split at h <;> cases h

/-- What a call of `modifyDag` leaves if it could not fetch a block. -/
structure Keep (svc : Svc) (ok : Prop) (err : Prop) (same : Prop) (svc' : Svc) : Prop where
  le : svc.stored.length ≤ svc'.stored.length
  lt : ok → svc.stored.length < svc'.stored.length
  same : err → svc'.stored.length = svc.stored.length → same

mutual
theorem modifyDag_keep : ∀ (n : Node) (off : UInt64) (buf : Bytes) (svc : Svc) {r : Except Err Node} {n' : Node} {buf' : Bytes} {svc' : Svc},
    modifyDag env n off buf svc = (r, n', buf', svc') → Keep svc (∃ k, r = .ok k) (r = .error .notFound) (n' = n ∧ buf' = buf) svc'
  | .proto d [] b, off, buf, svc, r, n', buf', svc', h => by
    rw [modifyDag] at h
    split at h
    · cases h; exact ⟨le_refl _, fun ⟨_, h⟩ => (by cases h), fun _ _ => ⟨rfl, rfl⟩⟩
    split at h
    · cases h; exact ⟨le_refl _, fun ⟨_, h⟩ => (by cases h), fun _ _ => ⟨rfl, rfl⟩⟩
    dsimp only at h
    split at h
    · rename_i e he
      cases h; exact ⟨le_refl _, fun ⟨_, h⟩ => (by cases h), fun h _ => by cases h; exact (getBytes_nf he).elim⟩
    split at h
    · rename_i he
      rcases svc_add he with ⟨h1, _⟩ | ⟨h1, h2⟩ <;> cases h1
      cases h; exact ⟨by rw [h2], fun ⟨_, h⟩ => (by cases h), fun h _ => by cases h⟩
    · rename_i he
      rcases svc_add he with ⟨_, h2⟩ | ⟨h1, _⟩
      · cases h; exact ⟨by omega, fun _ => by omega, fun h _ => by cases h⟩
      · cases h1
  | .raw d b, off, buf, svc, r, n', buf', svc', h => by
    rw [modifyDag] at h
    split at h
    · cases h; exact ⟨le_refl _, fun ⟨_, h⟩ => (by cases h), fun _ _ => ⟨rfl, rfl⟩⟩
    dsimp only at h
    split at h
    · rename_i he
      rcases svc_add he with ⟨h1, _⟩ | ⟨h1, h2⟩ <;> cases h1
      cases h; exact ⟨by rw [h2], fun ⟨_, h⟩ => (by cases h), fun h _ => by cases h⟩
    · rename_i he
      rcases svc_add he with ⟨_, h2⟩ | ⟨h1, _⟩
      · cases h; exact ⟨by omega, fun _ => by omega, fun h _ => by cases h⟩
      · cases h1
  | .other d, off, buf, svc, r, n', buf', svc', h => by
    rw [modifyDag] at h
    cases h; exact ⟨le_refl _, fun ⟨_, h⟩ => (by cases h), fun _ _ => ⟨rfl, rfl⟩⟩
  | .proto d (l :: ls) b, off, buf, svc, r, n', buf', svc', h => by
    rw [modifyDag] at h
    split at h
    · cases h; exact ⟨le_refl _, fun ⟨_, h⟩ => (by cases h), fun _ _ => ⟨rfl, rfl⟩⟩
    split at h
    · rename_i he
      have ih := modifyLinks_keep _ _ _ _ _ _ he
      cases h
      exact ⟨ih.le, fun ⟨_, h⟩ => (by cases h), fun h1 h2 => by
        cases h1
        obtain ⟨e1, e2⟩ := ih.same rfl h2
        exact ⟨by rw [e1], e2⟩⟩
    · rename_i he
      have ih := modifyLinks_keep _ _ _ _ _ _ he
      split at h
      · rename_i ha
        rcases svc_add ha with ⟨h1, _⟩ | ⟨h1, h2⟩ <;> cases h1
        cases h; exact ⟨by rw [h2]; exact ih.le, fun ⟨_, h⟩ => (by cases h), fun h _ => by cases h⟩
      · rename_i ha
        rcases svc_add ha with ⟨_, h2⟩ | ⟨h1, _⟩
        · have := ih.le
          cases h; exact ⟨by omega, fun _ => by omega, fun h _ => by cases h⟩
        · cases h1
theorem modifyLinks_keep : ∀ (bss : List UInt64) (ls : List Link) (cur off : UInt64) (buf : Bytes) (svc : Svc) {r : Option Err} {ls' : List Link} {buf' : Bytes} {svc' : Svc},
    modifyLinks env bss ls cur off buf svc = (r, ls', buf', svc') → Keep svc False (r = some .notFound) (ls' = ls ∧ buf' = buf) svc'
  | [], ls, cur, off, buf, svc, r, ls', buf', svc', h => by
    rw [modifyLinks] at h
    cases h; exact ⟨le_refl _, False.elim, fun _ _ => ⟨rfl, rfl⟩⟩
  | bs :: bss, [], cur, off, buf, svc, r, ls', buf', svc', h => by
    rw [modifyLinks] at h
    cases h; exact ⟨le_refl _, False.elim, fun _ _ => ⟨rfl, rfl⟩⟩
  | bs :: bss, .mk nm sz child :: ls, cur, off, buf, svc, r, ls', buf', svc', h => by
    rw [modifyLinks] at h
    split at h
    · split at h
      · rename_i hg
        have hg := svc_get hg
        cases h; exact ⟨by rw [hg], False.elim, fun _ _ => ⟨rfl, rfl⟩⟩
      · rename_i hg
        have hg := svc_get hg
        split at h
        · rename_i hm
          have ih := modifyDag_keep _ _ _ _ hm
          cases h
          exact ⟨by rw [← hg]; exact ih.le, False.elim, fun h1 h2 => by cases h1; exact ⟨rfl, (ih.same rfl (by rw [hg]; exact h2)).2⟩⟩
        · rename_i hm
          have ih := modifyDag_keep _ _ _ _ hm
          have ihl := ih.lt ⟨_, rfl⟩
          rw [hg] at ihl
          split at h
          · cases h; exact ⟨by omega, False.elim, fun h1 => by cases h1⟩
          · split at h
            rename_i hm2
            have ih2 := modifyLinks_keep _ _ _ _ _ _ hm2
            have := ih2.le
            cases h
            exact ⟨by omega, False.elim, fun _ h2 => by omega⟩
    · split at h
      rename_i hm
      have ih := modifyLinks_keep _ _ _ _ _ _ hm
      cases h
      exact ⟨ih.le, False.elim, fun h1 h2 => by
        obtain ⟨e1, e2⟩ := ih.same h1 h2
        exact ⟨by rw [e1], e2⟩⟩
end

theorem append_err {dm : DM} {cs : List Bytes} {fin : Option Err} {e : Err} {s : Svc} (h : dm.appendData env cs fin = (.error e, s)) :
    dm.svc.stored.length ≤ s.stored.length := by
  rw [DM.appendData] at h
  split at h
  · cases h; exact Nat.le_refl _
  · split at h
    · cases h; exact Nat.le_refl _
    · split at h
      · cases h; simp
      · cases h

/-- A `Sync` of bytes that start inside the file, which could not fetch a block and stored nothing,
leaves the modifier as it was. -/
theorem sync_keep {dm dm' : DM} {fs : UInt64} (hf : fileSize dm.cur = .ok fs) (hw : dm.ws ≤ fs) (h : dm.sync env = (.error .notFound, dm'))
    (hs : dm'.svc.stored = dm.svc.stored) : ∃ t, dm' = { dm with read := none, svc := { dm.svc with tick := t } } := by
  rw [DM.sync] at h
  split at h
  · cases h
  rename_i buf hb
  dsimp only at h
  rw [hf] at h
  dsimp only at h
  rw [if_neg (by rw [UInt64.lt_iff_toNat_lt]; rw [UInt64.le_iff_toNat_le] at hw; omega), DM.syncModify] at h
  dsimp only at h
  split at h
  · rename_i hm
    have k := modifyDag_keep _ _ _ _ hm
    obtain ⟨h1, rfl⟩ := Prod.mk.inj h
    cases h1
    obtain ⟨e1, e2⟩ := k.same rfl (congrArg List.length hs)
    rename_i svc'
    refine ⟨svc'.tick, ?_⟩
    obtain ⟨t, st⟩ := svc'
    dsimp only at hs ⊢
    rw [hs, e1, e2, hb]
    rfl
  · rename_i hm
    have k := modifyDag_keep _ _ _ _ hm
    have kl := k.lt ⟨_, rfl⟩
    exfalso
    have hle : ∀ x : DM, x = dm' → dm.svc.stored.length < x.svc.stored.length → False := by
      rintro _ rfl hx
      rw [hs] at hx
      omega
    split at h
    · rename_i hg
      cases h
      exact hle _ rfl (by dsimp only; rw [svc_get hg]; exact kl)
    · rename_i hg
      have hg := svc_get hg
      rw [← hg] at kl
      rw [DM.syncTail] at h
      dsimp only at h
      split at h
      · cases h
      split at h
      · rename_i ha
        have hq := append_err ha
        dsimp only at hq
        cases h
        exact hle _ rfl (by dsimp only; omega)
      · rename_i ha
        split at h
        · rename_i hadd
          rcases svc_add hadd with ⟨h1, _⟩ | ⟨h1, h2⟩ <;> cases h1
          cases h
        · cases h

/-- The pending bytes begin inside the file. -/
def Inside (dm : DM) : Prop := ∃ fs, fileSize dm.cur = .ok fs ∧ dm.ws ≤ fs

variable {root : Node} {g : Prop} {dm : DM} {f : F} {x : File} {t : Track}

theorem R0.inside (h : R0 root g dm f) : Inside dm ↔ f.ws ≤ f.c.length := by
  have h1 := fileSize_true h.sizes h.cont
  have h2 := h.lenc
  rw [Inside, h1]
  constructor
  · rintro ⟨fs, e, hle⟩
    cases e
    rw [UInt64.le_iff_toNat_le, h.ws, ofNat_toNat (by omega)] at hle
    exact hle
  · intro hle
    exact ⟨_, rfl, by rw [UInt64.le_iff_toNat_le, h.ws, ofNat_toNat (by omega)]; exact hle⟩

theorem seekTail_ws {fisize pos off whence n : Int} {new : UInt64} {dm' : DM} (h : dm.seekTail env fisize new pos off whence = (.ok n, dm')) :
    dm'.ws = dm'.cw := by
  unfold DM.seekTail at h
  split at h
  · cases h
  split at h
  · obtain ⟨_, rfl⟩ := Prod.mk.inj h
    rfl
  · split at h
    obtain ⟨_, rfl⟩ := Prod.mk.inj h
    rfl

/-- After a `Seek` the next write goes to the position. -/
theorem seek_ws {off whence n : Int} {dm' : DM} (h : dm.seek env off whence = (.ok n, dm')) : dm'.ws = dm'.cw := by
  unfold DM.seek at h
  split at h
  · cases h
  split at h
  · cases h
  split at h
  · cases h
  exact seekTail_ws h

theorem seek_inside {off : Int64} {whence : Int} {x' : File} (hS : Sim root g (dm.step env (.seek off whence)).2 x' (t.next x' (.seek off whence)))
    (h : FileStep x (.seek off whence) (dm.step env (.seek off whence)).1 x') : Inside (dm.step env (.seek off whence)).2 := by
  have hws : (dm.step env (.seek off whence)).2.ws = (dm.step env (.seek off whence)).2.cw := by
    generalize hr : dm.step env (.seek off whence) = r at h
    simp only [DM.step] at hr
    generalize hk : dm.seek env off.toInt whence = k at hr
    obtain ⟨e, dm'⟩ := k
    subst hr
    cases e with
    | error e => exact absurd h (by rintro ⟨⟩)
    | ok n => exact seek_ws hk
  obtain ⟨f, hR, hV, _⟩ := hS
  rw [hR.base.inside]
  have h1 := hR.base.ws
  have h2 := hR.base.cw
  have h3 : x'.pos ≤ x'.data.length := by
    rw [h.next_eq]
    generalize (dm.step env (.seek off whence)).1 = r at h
    cases h with
    | seek _ _ p hp =>
      simp only [File.next, hp, Int.toNat_natCast]
      split
      · simp [resize, zeros]; omega
      · omega
  have h4 := hV.pos
  have hb : f.buf = none := by
    cases hb : f.buf with
    | none => rfl
    | some b => have := hV.dirty (by simp [hb]); cases this
  have h5 : f.flush.c = f.c := by unfold F.flush; rw [hb]
  rw [← hV.data, h5] at h3
  rw [hws] at h1
  omega

theorem write_inside (hw : SplitOK env) (h : Sim root g dm x t) (hi : Inside dm) (b : Bytes) (hc : Careful g x t (.write b))
    (hn : ¬OutsideFailure env (dm.step env (.write b)).1) : Inside (dm.step env (.write b)).2 := by
  obtain ⟨f, hR, hV, hgf⟩ := h
  have hlen : f.c.length ≤ f.flush.c.length := by rw [F.flush_len]; split <;> omega
  have hlen2 : g ∨ f.flush.c.length = f.c.length := by
    refine hgf.imp id (fun h => ?_)
    rw [F.flush_len]
    rcases h with h | h
    · simp [h]
    · split <;> omega
  have hwp := hV.wp
  have hpos := hV.pos
  obtain ⟨h1, h2, h3⟩ := hc
  rw [hR.base.inside] at hi
  rcases write_sim hw hR.base b (by omega) (by omega) (h3.elim .inl (fun h3 => hlen2.imp id (fun h => by rw [← hV.data] at h3; omega))) with hf | ⟨dm', e, hR', _, _⟩
  · exact absurd (Failed.num hf) hn
  simp only [DM.step, e]
  rw [hR'.base.inside]
  unfold F.write F.flush
  dsimp only
  split
  · simp only [overlay_length]; omega
  · exact hi

/-- A `Sync` that could not fetch a block and stored nothing. -/
theorem retry_sim (h : Sim root g dm x t) (hi : Inside dm) (he : (dm.step env .sync).1 = { err := some .notFound })
    (hs : (dm.step env .sync).2.svc.stored = dm.svc.stored) : Sim root g (dm.step env .sync).2 x t ∧ Inside (dm.step env .sync).2 := by
  simp only [DM.step] at he hs ⊢
  generalize hr : dm.sync env = r at he hs
  obtain ⟨e, dm'⟩ := r
  cases e with
  | ok u => cases he
  | error e =>
    simp only [MRes.unit, MRes.mk.injEq, Option.some.injEq] at he
    obtain ⟨_, _, _, rfl⟩ := he
    obtain ⟨fs, hf, hw⟩ := hi
    obtain ⟨t', rfl⟩ := sync_keep hf hw hr hs
    refine ⟨?_, fs, hf, hw⟩
    obtain ⟨f, hR, hV, hgf⟩ := h
    have hb : f.buf.isSome := by
      cases hb : f.buf with
      | some b => rfl
      | none =>
        have := hR.base.buf
        unfold DM.sync at hr
        rw [this, hb] at hr
        cases hr
    exact ⟨f, ⟨⟨hR.base.sizes, hR.base.cont, hR.base.ws, hR.base.cw, hR.base.buf, hR.base.lenc, hR.base.lenw, hR.base.lencw, hR.base.grow, hR.base.store⟩,
      hV.norder hb⟩, hV, hgf⟩

end Unixfs.Mod
