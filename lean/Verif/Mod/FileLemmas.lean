import Verif.Mod.DagLemmas
import Verif.Props.Append
import Verif.Reader.Run
import Verif.Spec.ModFile

/-! # `appendData`, `expandSparse` and `Sync` on the level of contents

The definitions in this file belong to proofs; they model no code.
-/

namespace Unixfs.Mod
open Unixfs Unixfs.Import Unixfs.Spec Unixfs.Props

/-- The reasons for which a call may fail: the DAG service refuses, or the splitter reports an error
or delivers a chunk beyond the block size limit. -/
def Failure (env : Env) (S : Node → Prop) (e : Err) : Prop :=
  Refused env S e ∨ ∃ b, (env.split b).2 = some e ∨ (e = .sizeLimitExceeded ∧ ¬AllFit (env.split b).1)

theorem Failure.mono {env : Env} {S T : Node → Prop} {e : Err} (h : Failure env S e) (hST : ∀ x, S x → T x) : Failure env T e :=
  h.imp (fun h => h.mono hST) id

structure AppOK (n : Node) (c add : Bytes) (svc : Svc) (k : Node) (svc' : Svc) : Prop where
  sizes : SizesTrue k
  cont : content k = some (c ++ add)
  grow : Growable defaultLinksPerBlock k
  reach : ∀ x, Reach k x → x = k ∨ Reach n x ∨ x ∈ svc'.stored
  ext : svc.Ext svc'

theorem appendData_spec (env : Env) (dm : DM) (chunks : List Bytes) (fin : Option Err) {c : Bytes} (hs : SizesTrue dm.cur)
    (hc : content dm.cur = some c) (hg : Growable defaultLinksPerBlock dm.cur) :
    match dm.appendData env chunks fin with
    | (.ok k, svc') => AppOK dm.cur c chunks.flatten dm.svc k svc' ∧ fin = none ∧ AllFit chunks
    | (.error e, svc') => dm.svc.Ext svc' ∧
        (Refused env (OnSpine defaultLinksPerBlock dm.cur) e ∨ fin = some e ∨ (e = .sizeLimitExceeded ∧ ¬AllFit chunks)) := by
  have hp : ∃ d ls b, dm.cur = .proto d ls b := by
    cases h : dm.cur with
    | proto d ls b => exact ⟨d, ls, b, rfl⟩
    | raw d b => rw [h] at hg; exact hg.elim
    | other d => rw [h] at hg; exact hg.elim
  obtain ⟨d, ls, b, hcur⟩ := hp
  unfold DM.appendData
  rw [hcur] at hs hc hg ⊢
  simp only [Params.new, Bool.false_and, Bool.false_eq_true, if_false]
  set db : DB := { maxlinks := defaultLinksPerBlock, rawLeaves := dm.rawLeaves, cidBuilder := some dm.pfx, hasPath := !([] : Bytes).isEmpty, src := chunks, srcEnd := fin, addBudget := env.budget dm.svc.tick } with hdb
  have hf : Fresh { maxlinks := defaultLinksPerBlock, rawLeaves := dm.rawLeaves, cidBuilder := some dm.pfx } none chunks fin (env.budget dm.svc.tick) db := ⟨_, rfl, rfl⟩
  have h1 : 1 ≤ defaultLinksPerBlock := by decide
  have ha := growable_appendable hg
  change match (match Trickle.append (chunks.length + 1) (height (.proto d ls b) + 1) (.proto d ls b) { db with canGet := env.get dm.svc.tick } with
    | .error e => (Except.error e, ({ tick := dm.svc.tick + 1, stored := dm.svc.stored ++ (dm.appendLeft env chunks fin).2 } : Svc))
    | .ok (n', db') => (.ok n', { tick := dm.svc.tick + 1, stored := dm.svc.stored ++ db'.added.map Built.node })) with
    | (.ok k, svc') => AppOK (.proto d ls b) c chunks.flatten dm.svc k svc' ∧ fin = none ∧ AllFit chunks
    | (.error e, svc') => dm.svc.Ext svc' ∧
        (Refused env (OnSpine defaultLinksPerBlock (.proto d ls b)) e ∨ fin = some e ∨ (e = .sizeLimitExceeded ∧ ¬AllFit chunks))
  cases hr : Trickle.append (chunks.length + 1) (height (.proto d ls b) + 1) (.proto d ls b) { db with canGet := env.get dm.svc.tick } with
  | error e =>
    refine ⟨⟨⟨_, rfl⟩, by simp⟩, ?_⟩
    rcases C57_append_errors hf h1 hs ha (by omega) (by omega) hr with h | h | ⟨he, h⟩ | ⟨he, x, hx, hgx⟩
    · exact .inr (.inr h)
    · exact .inr (.inl h)
    · exact .inl (.inr ⟨he, .inr ⟨_, h⟩⟩)
    · exact .inl (.inl ⟨he, _, x, hx, hgx⟩)
  | ok q =>
    obtain ⟨n, db'⟩ := q
    refine ⟨⟨C17_append_sizes hf h1 hs ha hr, C16_append_content hf h1 hs ha hc hr, C16_append_growable hf h1 hs hg hr, ?_, ⟨⟨_, rfl⟩, by simp⟩⟩,
      C57_append_no_truncation hf h1 hs ha hr⟩
    intro x hx
    cases hx with
    | refl => exact .inl rfl
    | step hl hx =>
      rcases C58_append_stored hf h1 hs ha hr _ hl x hx with h | ⟨y, hy, he⟩
      · exact .inr (.inl h)
      · exact .inr (.inr (by simp only [List.mem_append, List.mem_map]; exact .inr ⟨y, hy, he⟩))

/-- What a call left of the current node: content `c'`, true sizes, growable if it was, and every block
below it reachable before or stored. -/
structure CurOK (dm dm' : DM) (c' : Bytes) : Prop where
  sizes : SizesTrue dm'.cur
  cont : content dm'.cur = some c'
  grow : Growable defaultLinksPerBlock dm.cur → Growable defaultLinksPerBlock dm'.cur
  reach : ∀ x, Reach dm'.cur x → Reach dm.cur x ∨ x ∈ dm'.svc.stored
  ext : dm.svc.Ext dm'.svc
  pfx : dm'.pfx = dm.pfx
  raw : dm'.rawLeaves = dm.rawLeaves

theorem CurOK.trans {a b c : DM} {x y : Bytes} (h : CurOK a b x) (h' : CurOK b c y) : CurOK a c y :=
  ⟨h'.sizes, h'.cont, fun g => h'.grow (h.grow g), fun x hx => by
    rcases h'.reach x hx with hx | hx
    · exact (h.reach x hx).imp id h'.ext.mem
    · exact .inr hx, h.ext.trans h'.ext, h'.pfx.trans h.pfx, h'.raw.trans h.raw⟩

theorem Svc.Ext.mem_last {s s' : Svc} {n : Node} (h : s'.stored = s.stored ++ [n]) : n ∈ s'.stored := by rw [h]; simp

theorem expandSparse_spec (env : Env) (dm : DM) (size : Int) {c : Bytes} (hs : SizesTrue dm.cur) (hc : content dm.cur = some c)
    (hg : Growable defaultLinksPerBlock dm.cur) :
    match dm.expandSparse env size with
    | (.ok (), dm') => CurOK dm dm' (c ++ zeros size.toNat) ∧ dm'.ws = dm.ws ∧ dm'.cw = dm.cw ∧ dm'.buf = dm.buf ∧ dm'.read = dm.touched
    | (.error e, dm') => dm.svc.Ext dm'.svc ∧ Refused env (OnSpine defaultLinksPerBlock dm.cur) e := by
  have h := appendData_spec env dm (zeroChunks size.toNat) none hs hc hg
  unfold DM.expandSparse
  generalize dm.appendData env (zeroChunks size.toNat) none = R at h ⊢
  obtain ⟨r, s1⟩ := R
  cases r with
  | error e =>
    refine ⟨h.1, ?_⟩
    rcases h.2 with h | h | ⟨_, h⟩
    · exact h
    · cases h
    · exact absurd (zeroChunks_fit _) h
  | ok k =>
    obtain ⟨h, -⟩ := h
    rw [zeroChunks_flatten] at h
    dsimp only
    rcases Svc.add_cases env k s1 with ⟨s', h1, h2, h3⟩ | ⟨s', h1, h2, h3⟩
    · rw [h1]
      refine ⟨⟨h.sizes, h.cont, fun _ => h.grow, ?_, h.ext.trans h2, rfl, rfl⟩, rfl, rfl, rfl, rfl⟩
      intro x hx
      rcases h.reach x hx with rfl | h | h
      · exact .inr (Svc.Ext.mem_last h3)
      · exact .inl h
      · exact .inr (h2.mem h)
    · rw [h1]; exact ⟨h.ext.trans h2, .inr ⟨rfl, .inl ⟨_, h3⟩⟩⟩

theorem syncTail_spec (env : Env) (hsp : SplitOK env) (dm : DM) (rest : Bytes) (len : Nat) {c : Bytes} (hb : dm.buf = some rest) (hs : SizesTrue dm.cur)
    (hc : content dm.cur = some c) (hg : Growable defaultLinksPerBlock dm.cur ∨ rest = []) :
    match dm.syncTail env len with
    | (.ok (), dm') => CurOK dm dm' (c ++ rest) ∧ dm'.ws = dm.ws + UInt64.ofNat len ∧ dm'.cw = dm.cw ∧ dm'.buf = none ∧ dm'.read = dm.read
    | (.error e, dm') => dm.svc.Ext dm'.svc ∧ (Refused env (OnSpine defaultLinksPerBlock dm.cur) e ∨ (env.split rest).2 = some e ∨ (e = .sizeLimitExceeded ∧ ¬AllFit (env.split rest).1)) := by
  unfold DM.syncTail
  simp only [hb, Option.getD_some]
  by_cases he : rest = []
  · subst he
    rw [List.isEmpty_nil, if_pos rfl, List.append_nil]
    exact ⟨⟨hs, hc, id, fun x hx => .inl hx, .refl _, rfl, rfl⟩, rfl, rfl, rfl, rfl⟩
  · rw [if_neg (by simpa using he)]
    have hg := hg.resolve_right he
    have h := appendData_spec env dm (env.split rest).1 (env.split rest).2 hs hc hg
    generalize dm.appendData env (env.split rest).1 (env.split rest).2 = R at h ⊢
    obtain ⟨r, s1⟩ := R
    cases r with
    | error e =>
      exact ⟨h.1, h.2⟩
    | ok k =>
      obtain ⟨h, hf, -⟩ := h
      rw [(hsp rest).1 hf] at h
      dsimp only
      rcases Svc.add_cases env k s1 with ⟨s', h1, h2, h3⟩ | ⟨s', h1, h2, h3⟩
      · rw [h1]
        refine ⟨⟨h.sizes, h.cont, fun _ => h.grow, ?_, h.ext.trans h2, rfl, rfl⟩, rfl, rfl, rfl, rfl⟩
        intro x hx
        rcases h.reach x hx with rfl | h | h
        · exact .inr (Svc.Ext.mem_last h3)
        · exact .inl h
        · exact .inr (h2.mem h)
      · rw [h1]; exact ⟨h.ext.trans h2, .inl (.inr ⟨rfl, .inl ⟨_, h3⟩⟩)⟩

theorem syncModify_spec (env : Env) (hsp : SplitOK env) (dm : DM) (buf : Bytes) {c : Bytes} (hb : dm.buf = some buf) (hs : SizesTrue dm.cur)
    (hc : content dm.cur = some c) (hl : c.length < 2 ^ 64) (ho : dm.ws.toNat ≤ c.length)
    (hg : Growable defaultLinksPerBlock dm.cur ∨ dm.ws.toNat + buf.length ≤ c.length) :
    match dm.syncModify env buf.length with
    | (.ok (), dm') => CurOK dm dm' (overlay c dm.ws.toNat buf) ∧ dm'.ws = dm.ws + UInt64.ofNat buf.length ∧ dm'.cw = dm.cw ∧ dm'.buf = none ∧ dm'.read = dm.read
    | (.error e, dm') => dm.svc.Ext dm'.svc ∧ Failure env (fun x => Reach dm.cur x ∨ x ∈ dm'.svc.stored) e := by
  unfold DM.syncModify
  simp only [hb, Option.getD_some]
  have h := modifyDag_spec env dm.cur dm.ws buf dm.svc c hs hc hl ho
  generalize modifyDag env dm.cur dm.ws buf dm.svc = R at h ⊢
  obtain ⟨r, n', rest, s1⟩ := R
  cases r with
  | error e => exact ⟨h.1, .inl (h.2.mono (fun x hx => .inl hx))⟩
  | ok k =>
    dsimp only
    rcases Svc.get_cases env k s1 with ⟨s2, h1, h2⟩ | ⟨s2, h1, h2, h3⟩
    · rw [h1]
      have hrest := h.rest
      have hC : CurOK dm { dm with cur := k, buf := some rest, svc := s2 } (writeInto c dm.ws.toNat buf).1 :=
        ⟨h.sizes, h.cont, h.grow _, fun x hx => (h.reach x hx).imp id h2.mem, h.ext.trans h2, rfl, rfl⟩
      have hT := syncTail_spec env hsp { dm with cur := k, buf := some rest, svc := s2 } rest buf.length rfl h.sizes h.cont
        (hg.imp (h.grow _) (fun hle => by rw [hrest]; simp only [writeInto]; exact List.drop_of_length_le (by omega)))
      dsimp only
      generalize DM.syncTail env { dm with cur := k, buf := some rest, svc := s2 } buf.length = R at hT ⊢
      obtain ⟨r, dm'⟩ := R
      cases r with
      | ok u =>
        obtain ⟨hT, h5, h6, h7, h8⟩ := hT
        have hcat : (writeInto c dm.ws.toNat buf).1 ++ rest = overlay c dm.ws.toNat buf := by rw [hrest, writeInto_overlay _ _ _ ho]
        rw [hcat] at hT
        exact ⟨hC.trans hT, h5, h6, h7, h8⟩
      | error e =>
        refine ⟨hC.ext.trans hT.1, Failure.mono (S := OnSpine defaultLinksPerBlock k) (hT.2.imp id (fun h => ⟨rest, h⟩)) (fun x hx => ?_)⟩
        rcases hC.reach x hx.reach with h | h
        · exact .inl h
        · exact .inr (hT.1.mem h)
    · rw [h1]
      refine ⟨h.ext.trans h2, .inl (.inl ⟨rfl, _, k, ?_, h3⟩)⟩
      exact (h.reach k (.refl _)).imp id h2.mem

/-- The effect of `Sync` with a pending buffer. -/
theorem sync_spec (env : Env) (hsp : SplitOK env) (dm : DM) (buf : Bytes) {c : Bytes} (hb : dm.buf = some buf) (hs : SizesTrue dm.cur)
    (hc : content dm.cur = some c) (hl : c.length < 2 ^ 63) (hw : dm.ws.toNat < 2 ^ 63)
    (hg : Growable defaultLinksPerBlock dm.cur ∨ dm.ws.toNat + buf.length ≤ c.length) :
    match dm.sync env with
    | (.ok (), dm') => CurOK dm dm' (overlay c dm.ws.toNat buf) ∧ dm'.ws = dm.ws + UInt64.ofNat buf.length ∧ dm'.cw = dm.cw ∧ dm'.buf = none ∧ dm'.read = none
    | (.error e, dm') => dm.svc.Ext dm'.svc ∧ Failure env (fun x => Reach dm.cur x ∨ x ∈ dm'.svc.stored) e := by
  obtain ⟨cur, ws, cw, bf, pfx, rawLeaves, read, svc⟩ := dm
  dsimp only at hb hs hc hw hg ⊢
  subst hb
  set dm : DM := ⟨cur, ws, cw, some buf, pfx, rawLeaves, read, svc⟩ with hdm
  set dm0 : DM := ⟨cur, ws, cw, some buf, pfx, rawLeaves, none, svc⟩ with hdm0
  unfold DM.sync
  simp only [hdm, fileSize_true hs hc]
  rw [← hdm0]
  change match (if UInt64.ofNat c.length < ws then
        match dm0.expandSparse env (s64 (ws - UInt64.ofNat c.length)) with
        | (.error e, dm) => (.error e, dm)
        | (.ok (), dm) => DM.syncModify env dm buf.length
      else DM.syncModify env dm0 buf.length) with
    | (.ok (), dm') => CurOK dm dm' (overlay c dm.ws.toNat buf) ∧ dm'.ws = dm.ws + UInt64.ofNat buf.length ∧ dm'.cw = dm.cw ∧ dm'.buf = none ∧ dm'.read = none
    | (.error e, dm') => dm.svc.Ext dm'.svc ∧ Failure env (fun x => Reach dm.cur x ∨ x ∈ dm'.svc.stored) e
  have hlen : (UInt64.ofNat c.length).toNat = c.length := by rw [UInt64.toNat_ofNat', Nat.mod_eq_of_lt (by omega)]
  by_cases hlt : UInt64.ofNat c.length < ws
  · rw [if_pos hlt]
    have hlt' : c.length < ws.toNat := by rw [← hlen]; exact UInt64.lt_iff_toNat_lt.mp hlt
    have hg := hg.resolve_right (by omega)
    have hsz : s64 (ws - UInt64.ofNat c.length) = ((ws.toNat - c.length : Nat) : Int) := by
      unfold s64; rw [usub (by omega), hlen, Reader.i64_id (by omega) (by omega)]
    have hE := expandSparse_spec env dm0 (s64 (ws - UInt64.ofNat c.length)) hs hc hg
    generalize DM.expandSparse env dm0 (s64 (ws - UInt64.ofNat c.length)) = R at hE ⊢
    obtain ⟨r, dm1⟩ := R
    cases r with
    | error e => exact ⟨hE.1, .inl (hE.2.mono (fun x hx => .inl hx.reach))⟩
    | ok u =>
      obtain ⟨hE, h1, h2, h3, h4⟩ := hE
      rw [hsz, Int.toNat_natCast] at hE
      have hlen' : (c ++ zeros (ws.toNat - c.length)).length = ws.toNat := by simp [zeros]; omega
      simp only [DM.touched, Option.map_none] at h1 h2 h3 h4
      have hM := syncModify_spec env hsp dm1 buf h3 hE.sizes hE.cont (by omega) (by rw [hlen', h1]) (.inl (hE.grow hg))
      dsimp only
      generalize DM.syncModify env dm1 buf.length = R at hM ⊢
      obtain ⟨r, dm'⟩ := R
      have hE' : CurOK dm dm1 _ := ⟨hE.sizes, hE.cont, hE.grow, hE.reach, hE.ext, hE.pfx, hE.raw⟩
      cases r with
      | ok u =>
        obtain ⟨hM, h5, h6, h7, h8⟩ := hM
        rw [h1, overlay_resize _ _ _ (by omega)] at hM
        exact ⟨hE'.trans hM, by rw [h5, h1], by rw [h6, h2], h7, by rw [h8, h4]; rfl⟩
      | error e =>
        refine ⟨hE'.ext.trans hM.1, hM.2.mono (fun x hx => ?_)⟩
        rcases hx with hx | hx
        · exact (hE'.reach x hx).imp id hM.1.mem
        · exact .inr hx
  · rw [if_neg hlt]
    have hge : ws.toNat ≤ c.length := by
      rw [← hlen]; exact Nat.le_of_not_lt (fun h => hlt (UInt64.lt_iff_toNat_lt.mpr h))
    have hM := syncModify_spec env hsp dm0 buf rfl hs hc (by omega) hge hg
    generalize DM.syncModify env dm0 buf.length = R at hM ⊢
    obtain ⟨r, dm'⟩ := R
    cases r with
    | ok u =>
      obtain ⟨hM, h5, h6, h7, h8⟩ := hM
      exact ⟨⟨hM.sizes, hM.cont, hM.grow, hM.reach, hM.ext, hM.pfx, hM.raw⟩, h5, h6, h7, h8⟩
    | error e => exact hM

/-- The effect of `Truncate` to less than the size, after its `Sync`. -/
theorem cut_spec (env : Env) (dm : DM) (size : UInt64) {c : Bytes} (hs : SizesTrue dm.cur) (hc : content dm.cur = some c)
    (hl : c.length < 2 ^ 63) (ho : size.toNat < c.length) :
    match dagTruncate env dm.cur size dm.svc with
    | (.error e, svc) => dm.svc.Ext svc ∧ Refused env (Reach dm.cur) e
    | (.ok n, svc) =>
      match svc.add env n with
      | (.error e, svc) => dm.svc.Ext svc ∧ Refused env (Reach dm.cur) e
      | (.ok (), svc) => CurOK dm { dm with svc := svc, cur := n, read := dm.touched } (c.take size.toNat) := by
  have h := dagTruncate_spec env dm.cur size dm.svc c hs hc (by omega) ho
  generalize dagTruncate env dm.cur size dm.svc = R at h ⊢
  obtain ⟨r, s1⟩ := R
  cases r with
  | error e => exact h
  | ok k =>
    dsimp only
    rcases Svc.add_cases env k s1 with ⟨s', h1, h2, h3⟩ | ⟨s', h1, h2, h3⟩
    · rw [h1]
      refine ⟨h.sizes, h.cont, h.grow _, ?_, h.ext.trans h2, rfl, rfl⟩
      intro x hx
      rcases h.reach x hx with rfl | h | h
      · exact .inr (Svc.Ext.mem_last h3)
      · exact .inl h
      · exact .inr (h2.mem h)
    · rw [h1]; exact ⟨h.ext.trans h2, .inr ⟨rfl, .inl ⟨_, h3⟩⟩⟩

end Unixfs.Mod
