import Verif.Mod.Need
import Verif.Mod.Edit
import Verif.Import.FailCost
import Verif.Mod.Left
import Verif.Spec.Cost

/-! # How many blocks an edit stores

The definitions in this file belong to proofs; they model no code. -/

namespace Unixfs.Mod
open Unixfs Unixfs.Import Unixfs.Spec

theorem overlapping_append (xs ys : List Node) (s a b : Nat) :
    overlapping (xs ++ ys) s a b = overlapping xs s a b + overlapping ys (s + (xs.map contentLen).sum) a b := by
  induction xs generalizing s with
  | nil => simp [overlapping]
  | cons x xs ih => simp only [List.cons_append, overlapping, ih, List.map_cons, List.sum_cons]; rw [Nat.add_assoc, Nat.add_assoc]

theorem overlapping_shift (xs : List Node) (s a b k : Nat) (hk : k ≤ a) (hs : k ≤ s) (hb : k ≤ b) :
    overlapping xs s a b = overlapping xs (s - k) (a - k) (b - k) := by
  induction xs generalizing s with
  | nil => rfl
  | cons x xs ih =>
    simp only [overlapping]
    rw [ih (s + contentLen x) (by omega), show s + contentLen x - k = s - k + contentLen x by omega]
    congr 1
    split <;> split <;> first | rfl | omega

theorem overlapping_mono (xs : List Node) (s a a' b : Nat) (h : a' ≤ a) : overlapping xs s a b ≤ overlapping xs s a' b := by
  induction xs generalizing s with
  | nil => exact Nat.le_refl _
  | cons x xs ih =>
    simp only [overlapping]
    have := ih (s + contentLen x)
    split <;> split <;> omega

theorem overlapping_pos (xs : List Node) (s a b : Nat) (h0 : s ≤ a) (h1 : a < b) (h2 : a < s + (xs.map contentLen).sum) :
    1 ≤ overlapping xs s a b := by
  induction xs generalizing s with
  | nil => simp at h2; omega
  | cons x xs ih =>
    simp only [overlapping, List.map_cons, List.sum_cons] at h2 ⊢
    by_cases h : a < s + contentLen x
    · rw [if_pos ⟨by omega, h⟩]; omega
    · have := ih (s + contentLen x) (by omega) (by omega)
      omega

/-- From `s` to `s'`, at most `a` more blocks were stored and at most `t` more requests were made. -/
def Costs (s s' : Svc) (a t : Nat) : Prop := s'.stored.length ≤ s.stored.length + a ∧ s'.tick ≤ s.tick + t

theorem add_costs {env : Env} {s s' : Svc} {n : Node} {r : Except Err Unit} (h : s.add env n = (r, s')) : Costs s s' 1 1 := by
  unfold Svc.add at h
  split at h <;> cases h <;> simp [Costs]

theorem get_costs {env : Env} {s s' : Svc} {n : Node} {r : Except Err Unit} (h : s.get env n = (r, s')) : Costs s s' 0 1 := by
  unfold Svc.get at h
  cases h; simp [Costs]

mutual
/-- `modifyDag` stores a block for the root, and for each leaf written to one on each level. -/
theorem modifyDag_costs (env : Env) : ∀ (n : Node) (off : UInt64) (buf : Bytes) (svc : Svc) (c : Bytes),
    SizesTrue n → content n = some c → c.length < 2 ^ 64 → off.toNat ≤ c.length → buf ≠ [] →
    ∀ r n' rest svc', modifyDag env n off buf svc = (r, n', rest, svc') →
      Costs svc svc' (1 + height n * touched n off.toNat (off.toNat + buf.length))
        (1 + 2 * (height n * touched n off.toNat (off.toNat + buf.length)))
  | .other _, _, _, _, _, hs, _, _, _, _ => hs.elim
  | .raw d b, off, buf, svc, c, hs, hc, hl, ho, hne => by
    intro r n' rest svc' h
    rw [modifyDag] at h
    split at h
    · cases h; simp [Costs]
    dsimp only at h
    split at h <;> (next ha => cases h; have := add_costs ha; unfold Costs at this ⊢; omega)
  | .proto d [] b, off, buf, svc, c, hs, hc, hl, ho, hne => by
    intro r n' rest svc' h
    rw [modifyDag] at h
    split at h
    · cases h; simp [Costs]
    split at h
    · cases h; simp [Costs]
    dsimp only at h
    split at h
    · cases h; simp [Costs]
    split at h <;> (next ha => cases h; have := add_costs ha; unfold Costs at this ⊢; omega)
  | .proto d (l :: ls) b, off, buf, svc, c, hs, hc, hl, ho, hne => by
    intro r n' rest svc' h
    simp only [SizesTrue] at hs
    obtain ⟨m, hm, hf, hd, hb, hfs, hsl⟩ := hs
    simp only [content] at hc
    have hL := modifyLinks_costs env (heightL (l :: ls)) (l :: ls) 0 off buf svc c hsl hc (by simpa using hl) (by simp) (by simpa using ho) hne (Nat.le_refl _)
    rw [modifyDag] at h
    simp only [FSNode.fromBytes, hm, FSNode.blockSizes, hb] at h
    generalize modifyLinks env ((l :: ls).map (fun l => UInt64.ofNat (contentLen l.target))) (l :: ls) 0 off buf svc = R at hL h
    obtain ⟨r, ls', rest', s1⟩ := R
    replace hL := hL _ _ _ _ rfl
    unfold Costs at hL ⊢
    simp only [height, touched, leaves, UInt64.toNat_zero] at hL ⊢
    cases r with
    | some e' => cases h; omega
    | none =>
      dsimp only at h
      split at h <;> (next ha => cases h; have := add_costs ha; unfold Costs at this; omega)
theorem modifyLinks_costs (env : Env) (H : Nat) : ∀ (ls : List Link) (cur off : UInt64) (buf : Bytes) (svc : Svc) (c : Bytes),
    SizesTrueL ls → contentL ls = some c → cur.toNat + c.length < 2 ^ 64 → cur.toNat ≤ off.toNat → off.toNat ≤ cur.toNat + c.length → buf ≠ [] →
    heightL ls ≤ H →
    ∀ r ls' rest svc', modifyLinks env (ls.map (fun l => UInt64.ofNat (contentLen l.target))) ls cur off buf svc = (r, ls', rest, svc') →
      Costs svc svc' (H * overlapping (leavesL ls) cur.toNat off.toNat (off.toNat + buf.length))
        (2 * (H * overlapping (leavesL ls) cur.toNat off.toNat (off.toNat + buf.length)))
  | [], cur, off, buf, svc, c, _, hc, hl, ho1, ho2, hne, hH => by
    intro r ls' rest svc' h
    rw [List.map_nil, modifyLinks] at h
    cases h
    simp [Costs]
  | .mk nm sz child :: ls, cur, off, buf, svc, c, hs, hc, hl, ho1, ho2, hne, hH => by
    intro r ls' rest svc' h
    obtain ⟨hs1, hs2⟩ := hs
    obtain ⟨a, ha⟩ := sizesTrue_content hs1
    obtain ⟨b, hb⟩ := sizesTrueL_content hs2
    simp only [contentL, ha, hb, Option.some.injEq] at hc
    subst hc
    rw [List.length_append] at hl ho2
    rw [List.map_cons, modifyLinks] at h
    rw [show contentLen (Link.target (.mk nm sz child)) = a.length from contentLen_of ha] at h
    have hcur : (cur + UInt64.ofNat a.length).toNat = cur.toNat + a.length := uadd rfl (by omega)
    have hpos := List.length_pos_iff.mpr hne
    have hH1 : height child + 1 ≤ H := by simp only [heightL] at hH; omega
    have hH2 : heightL ls ≤ H := by simp only [heightL] at hH; omega
    have hsum := leaves_sum child a hs1 ha
    simp only [leavesL]
    rw [overlapping_append, hsum]
    by_cases hlt : cur + UInt64.ofNat a.length > off
    · rw [if_pos hlt] at h
      have hlt' : off.toNat < cur.toNat + a.length := by rw [← hcur]; exact UInt64.lt_iff_toNat_lt.mp hlt
      have hsub : (off - cur).toNat = off.toNat - cur.toNat := usub ho1
      have ht : overlapping (leaves child) cur.toNat off.toNat (off.toNat + buf.length) =
          touched child (off.toNat - cur.toNat) (off.toNat - cur.toNat + buf.length) := by
        rw [overlapping_shift _ _ _ _ cur.toNat ho1 (Nat.le_refl _) (by omega), touched, Nat.sub_self,
          show off.toNat + buf.length - cur.toNat = off.toNat - cur.toNat + buf.length by omega]
      have ht1 : 1 ≤ overlapping (leaves child) cur.toNat off.toNat (off.toNat + buf.length) :=
        overlapping_pos _ _ _ _ ho1 (by omega) (by rw [hsum]; omega)
      -- what the child may cost
      have hkey : 1 + height child * overlapping (leaves child) cur.toNat off.toNat (off.toNat + buf.length) ≤
          H * overlapping (leaves child) cur.toNat off.toNat (off.toNat + buf.length) := by
        have := Nat.mul_le_mul_right (overlapping (leaves child) cur.toNat off.toNat (off.toNat + buf.length)) hH1
        rw [Nat.add_mul, Nat.one_mul] at this
        omega
      rw [Nat.mul_add]
      split at h
      · next hg => cases h; have := get_costs hg; unfold Costs at this ⊢; omega
      next s1 hg =>
      have hg := get_costs hg
      have hM := modifyDag_spec env child (off - cur) buf s1 a hs1 ha (by omega) (by omega)
      have hN := modifyDag_costs env child (off - cur) buf s1 a hs1 ha (by omega) (by omega) hne
      rw [hsub, ← ht] at hN
      rw [hsub] at hM
      revert hM hN h
      rcases modifyDag env child (off - cur) buf s1 with ⟨r, n', rest1, s2⟩
      intro h hM hN
      replace hN := hN _ _ _ _ rfl
      cases r with
      | error e' => cases h; unfold Costs at hg hN ⊢; omega
      | ok k =>
        dsimp only at h
        by_cases he : rest1.isEmpty
        · rw [if_pos he] at h; cases h; unfold Costs at hg hN ⊢; omega
        · rw [if_neg he] at h
          have hr : rest1 = buf.drop (a.length - (off.toNat - cur.toNat)) := hM.rest
          have hrl : rest1.length = buf.length - (a.length - (off.toNat - cur.toNat)) := by rw [hr]; simp
          have hrp : rest1 ≠ [] := by simpa using he
          have hrp' := List.length_pos_iff.mpr hrp
          have hL := modifyLinks_costs env H ls (cur + UInt64.ofNat a.length) (cur + UInt64.ofNat a.length) rest1 s2 b hs2 hb (by omega) (Nat.le_refl _) (by omega) hrp hH2
          rw [hcur, show cur.toNat + a.length + rest1.length = off.toNat + buf.length by omega] at hL
          have hmono := Nat.mul_le_mul_left H (overlapping_mono (leavesL ls) (cur.toNat + a.length) (cur.toNat + a.length) off.toNat (off.toNat + buf.length) (by omega))
          revert hL h
          rcases modifyLinks env (ls.map (fun l => UInt64.ofNat (contentLen l.target))) ls (cur + UInt64.ofNat a.length)
            (cur + UInt64.ofNat a.length) rest1 s2 with ⟨r, ls1, rest', s3⟩
          intro h hL
          replace hL := hL _ _ _ _ rfl
          cases h
          unfold Costs at hg hN hL ⊢
          dsimp only
          omega
    · rw [if_neg hlt] at h
      have hge : cur.toNat + a.length ≤ off.toNat := by
        rw [← hcur]; exact Nat.le_of_not_lt (fun h => hlt (UInt64.lt_iff_toNat_lt.mpr h))
      have hL := modifyLinks_costs env H ls (cur + UInt64.ofNat a.length) off buf svc b hs2 hb (by omega) (by omega) (by omega) hne hH2
      rw [hcur] at hL
      revert hL h
      rcases modifyLinks env (ls.map (fun l => UInt64.ofNat (contentLen l.target))) ls (cur + UInt64.ofNat a.length) off buf svc with ⟨r, ls1, rest', s3⟩
      intro h hL
      replace hL := hL _ _ _ _ rfl
      cases h
      rw [Nat.mul_add]
      unfold Costs at hL ⊢
      omega
end

mutual
/-- `modifyDag` keeps the height. -/
theorem modifyDag_height (env : Env) : ∀ (n : Node) (off : UInt64) (buf : Bytes) (svc : Svc) (k x : Node) (rest : Bytes) (svc' : Svc),
    modifyDag env n off buf svc = (.ok k, x, rest, svc') → height k = height n
  | .other _, _, _, _, _, _, _, _, h => by rw [modifyDag] at h; cases h
  | .raw d b, off, buf, svc, k, x, rest, svc', h => by
    rw [modifyDag] at h
    split at h
    · cases h
    dsimp only at h
    split at h
    · cases h
    · cases h; rfl
  | .proto d [] b, off, buf, svc, k, x, rest, svc', h => by
    rw [modifyDag] at h
    split at h
    · cases h
    split at h
    · cases h
    dsimp only at h
    split at h
    · cases h
    split at h
    · cases h
    · cases h; rfl
  | .proto d (l :: ls) b, off, buf, svc, k, x, rest, svc', h => by
    rw [modifyDag] at h
    split at h
    · cases h
    split at h
    · cases h
    · next hM =>
      split at h
      · cases h
      · cases h
        simp only [height]
        exact modifyLinks_height env _ _ _ _ _ _ _ _ _ hM
theorem modifyLinks_height (env : Env) : ∀ (bss : List UInt64) (ls : List Link) (cur off : UInt64) (buf : Bytes) (svc : Svc) (ls' : List Link)
    (rest : Bytes) (svc' : Svc), modifyLinks env bss ls cur off buf svc = (none, ls', rest, svc') → heightL ls' = heightL ls
  | [], ls, cur, off, buf, svc, ls', rest, svc', h => by rw [modifyLinks] at h; cases h; rfl
  | bs :: bss, [], cur, off, buf, svc, ls', rest, svc', h => by
    rw [modifyLinks] at h
    split at h
    · cases h
    · cases h; rfl
  | bs :: bss, .mk nm sz child :: ls, cur, off, buf, svc, ls', rest, svc', h => by
    rw [modifyLinks] at h
    split at h
    · split at h
      · cases h
      split at h
      · cases h
      · next hM =>
        have hk := modifyDag_height env child _ _ _ _ _ _ _ hM
        split at h
        · cases h; simp only [heightL, hk]
        · split at h
          next hR =>
          cases h
          simp only [heightL, hk, modifyLinks_height env _ _ _ _ _ _ _ _ _ hR]
    · split at h
      next hR =>
      cases h
      simp only [heightL, modifyLinks_height env _ _ _ _ _ _ _ _ _ hR]
end

mutual
/-- `dagTruncate` stores one block on each level below the root. -/
theorem dagTruncate_costs (env : Env) : ∀ (n : Node) (size : UInt64) (svc : Svc) (r : Except Err Node) (svc' : Svc),
    dagTruncate env n size svc = (r, svc') → svc'.stored.length ≤ svc.stored.length + height n
  | .other _, _, _, _, _, h => by rw [dagTruncate] at h; cases h; simp
  | .raw d b, size, svc, r, svc', h => by
    rw [dagTruncate] at h
    split at h <;> cases h <;> simp
  | .proto d [] b, size, svc, r, svc', h => by
    rw [dagTruncate] at h
    split at h
    · cases h; simp
    split at h <;> cases h <;> simp
  | .proto d (l :: ls) b, size, svc, r, svc', h => by
    rw [dagTruncate] at h
    split at h
    · cases h; simp
    split at h
    · next hT => cases h; have := truncLinks_costs env _ _ _ _ _ _ _ _ hT; simp only [height]; omega
    · next hT =>
      have := truncLinks_costs env _ _ _ _ _ _ _ _ hT
      simp only [height]
      have hpos : 1 ≤ heightL (l :: ls) := by cases l; simp only [heightL]; omega
      split at h
      · next ha => cases h; have := (add_costs ha).1; omega
      · next ha =>
        have := (add_costs ha).1
        split at h <;> cases h <;> omega
theorem truncLinks_costs (env : Env) : ∀ (ls : List Link) (cur size : UInt64) (fs : FSNode) (kept : List Link) (svc : Svc)
    (r : Except Err (FSNode × List Link × Node)) (svc' : Svc),
    truncLinks env ls cur size fs kept svc = (r, svc') → svc'.stored.length ≤ svc.stored.length + (heightL ls - 1)
  | [], cur, size, fs, kept, svc, r, svc', h => by rw [truncLinks] at h; cases h; simp
  | .mk nm sz child :: ls, cur, size, fs, kept, svc, r, svc', h => by
    rw [truncLinks] at h
    simp only [heightL]
    split at h
    · next hg => cases h; have := (get_costs hg).1; omega
    next hg =>
    have hg := (get_costs hg).1
    split at h
    · cases h; omega
    split at h
    · split at h <;> (next hT => cases h; have := dagTruncate_costs env _ _ _ _ _ hT; omega)
    · have := truncLinks_costs env _ _ _ _ _ _ _ _ h; omega
end

theorem appendData_costs {env : Env} {dm : DM} {chunks : List Bytes} {fin : Option Err} {r : Except Err Node} {svc' : Svc}
    (h : dm.appendData env chunks fin = (r, svc')) :
    svc'.stored.length ≤ dm.svc.stored.length + (2 * chunks.length + height dm.cur) := by
  cases r with
  | error e =>
    rcases appendData_error h with ⟨h1, _⟩ | ⟨db', h1, h2⟩
    · rw [h1]; omega
    · rw [h2]
      have := Trickle.appendF_spent (fun hh => by cases hh) (show 0 < defaultLinksPerBlock by decide) h1
      simp only [Trickle.Spent, Trickle.due, DB.pend, DM.builder, Option.toList, List.nil_append, List.length_nil] at this
      simp only [List.length_append, List.length_map]
      omega
  | ok k =>
  unfold DM.appendData at h
  split at h
  · cases h
  split at h
  · cases h
  next db hnew =>
  split at h
  · cases h
  next n' db' happ =>
  cases h
  have hdb := hnew
  unfold Params.new at hdb
  simp at hdb
  subst hdb
  have := (Trickle.append_paid (by intro hh; simp at hh) (show 0 < defaultLinksPerBlock by decide) happ).le
  simp only [Trickle.due, DB.pend, List.length_append, List.length_nil, Option.toList] at this
  simp only [List.length_append, List.length_map]
  omega

theorem syncTail_costs {env : Env} {dm dm' : DM} {k : Nat} {r : Except Err Unit} (h : dm.syncTail env k = (r, dm')) :
    dm'.svc.stored.length ≤ dm.svc.stored.length +
      (if dm.buf.getD [] = [] then 0 else 2 * (env.split (dm.buf.getD [])).1.length + height dm.cur + 1) := by
  unfold DM.syncTail at h
  simp only [List.isEmpty_iff] at h
  split at h
  · next he => cases h; simp
  next he =>
  rw [if_neg he]
  split at h
  · next ha => cases h; have := appendData_costs ha; dsimp only; omega
  · next ha =>
    have := appendData_costs ha
    split at h <;> (next hb => cases h; have := (add_costs hb).1; dsimp only; omega)

/-- What `Sync` stores. -/
theorem sync_costs {env : Env} {dm dm' : DM} {buf c : Bytes} {r : Except Err Unit} (hb : dm.buf = some buf) (hs : SizesTrue dm.cur)
    (hc : content dm.cur = some c) (hl : c.length < 2 ^ 63) (ho : dm.ws.toNat ≤ c.length) (hne : buf ≠ []) (h : dm.sync env = (r, dm')) :
    dm'.svc.stored.length ≤ dm.svc.stored.length + (1 + height dm.cur * touched dm.cur dm.ws.toNat (dm.ws.toNat + buf.length) +
      (if dm.ws.toNat + buf.length ≤ c.length then 0
       else 2 * (env.split (buf.drop (c.length - dm.ws.toNat))).1.length + height dm.cur + 1)) ∧
    (dm.ws.toNat + buf.length ≤ c.length →
      dm'.svc.tick ≤ dm.svc.tick + (2 + 2 * (height dm.cur * touched dm.cur dm.ws.toNat (dm.ws.toNat + buf.length)))) := by
  obtain ⟨cur, ws, cw, bf, pfx, rawLeaves, read, svc⟩ := dm
  dsimp only at hb hs hc ho ⊢
  subst hb
  have hlen : (UInt64.ofNat c.length).toNat = c.length := by rw [UInt64.toNat_ofNat', Nat.mod_eq_of_lt (by omega)]
  unfold DM.sync at h
  simp only [fileSize_true hs hc] at h
  rw [if_neg (fun hlt => by have := UInt64.lt_iff_toNat_lt.mp hlt; omega)] at h
  unfold DM.syncModify at h
  simp only [Option.getD_some] at h
  have hN := modifyDag_costs env cur ws buf svc c hs hc (by omega) ho hne
  have hM := modifyDag_spec env cur ws buf svc c hs hc (by omega) ho
  have hK := modifyDag_height env cur ws buf svc
  generalize modifyDag env cur ws buf svc = R at hN hM hK h
  obtain ⟨r, n', rest, s1⟩ := R
  replace hN := hN _ _ _ _ rfl
  unfold Costs at hN
  cases r with
  | error e' => cases h; dsimp only; exact ⟨by omega, fun _ => by omega⟩
  | ok k =>
    have hrest : rest = buf.drop (c.length - ws.toNat) := hM.rest
    have hk := hK _ _ _ _ rfl
    dsimp only at h
    split at h
    · next hg => cases h; have := get_costs hg; unfold Costs at this; dsimp only; exact ⟨by omega, fun _ => by omega⟩
    · next hg =>
      have hg := get_costs hg
      unfold Costs at hg
      have hT := syncTail_costs h
      dsimp only [Option.getD_some] at hT
      rw [hk] at hT
      by_cases hle : ws.toNat + buf.length ≤ c.length
      · have : rest = [] := by rw [hrest]; exact List.drop_of_length_le (by omega)
        rw [if_pos this] at hT
        rw [if_pos hle]
        subst this
        unfold DM.syncTail at h
        simp only [Option.getD_some, List.isEmpty_nil, if_true] at h
        cases h
        dsimp only
        exact ⟨by omega, fun _ => by omega⟩
      · rw [if_neg hle]
        refine ⟨?_, fun h => absurd h hle⟩
        have : rest ≠ [] := by
          rw [hrest]; intro h0
          have := congrArg List.length h0
          simp at this
          omega
        rw [if_neg this, hrest] at hT
        omega

end Unixfs.Mod
