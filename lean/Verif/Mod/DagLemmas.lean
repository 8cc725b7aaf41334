import Verif.Mod.Lemmas
import Verif.Props.Format

/-! # `modifyDag` and `dagTruncate` on the level of contents

The definitions in this file belong to proofs; they model no code.
-/

namespace Unixfs.Mod
open Unixfs Unixfs.Import Unixfs.Spec

theorem contentLen_of {n : Node} {c : Bytes} (h : content n = some c) : contentLen n = c.length := by simp [contentLen, h]

theorem fileSize_true {n : Node} {c : Bytes} (hs : SizesTrue n) (hc : content n = some c) : fileSize n = .ok (UInt64.ofNat c.length) := by
  cases n with
  | raw d b => simp only [content, Option.some.injEq] at hc; simp [fileSize, hc]
  | other d => exact hs.elim
  | proto d ls b =>
    simp only [SizesTrue] at hs
    obtain ⟨m, hm, hf, hd, hb, hfs, hl⟩ := hs
    simp only [fileSize, FSNode.fromBytes, hm, FSNode.fileSize, pbSize]
    have : m.getType = TFile ∨ m.getType = TRaw := by rcases hf with h | h <;> simp [Pb.Data.getType, h]
    rw [if_neg (by rcases this with h | h <;> rw [h] <;> decide), if_pos this]
    rw [contentLen_of hc] at hfs
    simp [Pb.Data.getFilesize, hfs]

/-- What the service holds only grows. -/
def Svc.Ext (s s' : Svc) : Prop := s.stored <+: s'.stored ∧ s.tick ≤ s'.tick

theorem Svc.Ext.refl (s : Svc) : s.Ext s := ⟨List.prefix_rfl, Nat.le_refl _⟩
theorem Svc.Ext.trans {a b c : Svc} (h : a.Ext b) (h' : b.Ext c) : a.Ext c := ⟨h.1.trans h'.1, Nat.le_trans h.2 h'.2⟩
theorem Svc.Ext.mem {a b : Svc} (h : a.Ext b) {x : Node} (hx : x ∈ a.stored) : x ∈ b.stored := h.1.subset hx

theorem Svc.add_cases (env : Env) (n : Node) (s : Svc) :
    (∃ s', s.add env n = (.ok (), s') ∧ s.Ext s' ∧ s'.stored = s.stored ++ [n]) ∨
    (∃ s', s.add env n = (.error .addFailed, s') ∧ s.Ext s' ∧ env.put s.tick = false) := by
  unfold Svc.add
  by_cases h : env.put s.tick
  · left; rw [if_pos h]; exact ⟨_, rfl, ⟨⟨[n], rfl⟩, by simp⟩, rfl⟩
  · right; rw [if_neg h]; exact ⟨_, rfl, ⟨List.prefix_rfl, by simp⟩, by simpa using h⟩

theorem Svc.get_cases (env : Env) (n : Node) (s : Svc) :
    (∃ s', s.get env n = (.ok (), s') ∧ s.Ext s') ∨ (∃ s', s.get env n = (.error .notFound, s') ∧ s.Ext s' ∧ env.get s.tick n = false) := by
  unfold Svc.get
  by_cases h : env.get s.tick n
  · left; rw [if_pos h]; exact ⟨_, rfl, ⟨List.prefix_rfl, by simp⟩⟩
  · right; rw [if_neg h]; exact ⟨_, rfl, ⟨List.prefix_rfl, by simp⟩, by simpa using h⟩

/-- The DAG service refused: a block among `S` could not be fetched, or one could not be stored. -/
def Refused (env : Env) (S : Node → Prop) (e : Err) : Prop :=
  (e = .notFound ∧ ∃ t x, S x ∧ env.get t x = false) ∨ (e = .addFailed ∧ ((∃ t, env.put t = false) ∨ ∃ t, env.budget t ≠ none))

theorem Refused.mono {env : Env} {S T : Node → Prop} {e : Err} (h : Refused env S e) (hST : ∀ x, S x → T x) : Refused env T e := by
  rcases h with ⟨rfl, t, x, hx, hg⟩ | h
  · exact .inl ⟨rfl, t, x, hST x hx, hg⟩
  · exact .inr h

/-- A successful `modifyDag`. -/
structure ModOK (n : Node) (c : Bytes) (off : Nat) (buf : Bytes) (svc : Svc) (k : Node) (rest : Bytes) (svc' : Svc) : Prop where
  sizes : SizesTrue k
  cont : content k = some (writeInto c off buf).1
  rest : rest = (writeInto c off buf).2
  grow : ∀ m, Growable m n → Growable m k
  reach : ∀ x, Reach k x → Reach n x ∨ x ∈ svc'.stored
  ext : svc.Ext svc'

def ModResult (env : Env) (n : Node) (c : Bytes) (off : Nat) (buf : Bytes) (svc : Svc) : Except Err Node × Node × Bytes × Svc → Prop
  | (.ok k, _, rest, svc') => ModOK n c off buf svc k rest svc'
  | (.error e, _, _, svc') => svc.Ext svc' ∧ Refused env (Reach n) e

structure ModLOK (ls : List Link) (c : Bytes) (off : Nat) (buf : Bytes) (svc : Svc) (ls' : List Link) (rest : Bytes) (svc' : Svc) : Prop where
  sizes : SizesTrueL ls'
  cont : contentL ls' = some (writeInto c off buf).1
  rest : rest = (writeInto c off buf).2
  lens : ls'.map (fun l => UInt64.ofNat (contentLen l.target)) = ls.map (fun l => UInt64.ofNat (contentLen l.target))
  grow : ∀ m i, GrowableFrom m i ls → GrowableFrom m i ls'
  reach : ∀ l' ∈ ls', ∀ x, Reach l'.target x → (∃ l ∈ ls, Reach l.target x) ∨ x ∈ svc'.stored
  ext : svc.Ext svc'

def ModLResult (env : Env) (ls : List Link) (c : Bytes) (off : Nat) (buf : Bytes) (svc : Svc) : Option Err × List Link × Bytes × Svc → Prop
  | (none, ls', rest, svc') => ModLOK ls c off buf svc ls' rest svc'
  | (some e, _, _, svc') => svc.Ext svc' ∧ Refused env (fun x => ∃ l ∈ ls, Reach l.target x) e

theorem reach_leaf {d : Bytes} {b : Builder} {x : Node} (h : Reach (.proto d [] b) x) : x = .proto d [] b := by
  cases h with
  | refl => rfl
  | step hl _ => simp [Node.links] at hl

theorem reach_raw {d : Bytes} {b : Builder} {x : Node} (h : Reach (.raw d b) x) : x = .raw d b := by
  cases h with
  | refl => rfl
  | step hl _ => simp [Node.links] at hl

theorem uadd {a b : UInt64} {n : Nat} (hb : b = UInt64.ofNat n) (h : a.toNat + n < 2 ^ 64) : (a + b).toNat = a.toNat + n := by
  rw [UInt64.toNat_add, hb, UInt64.toNat_ofNat']; omega

theorem usub {a b : UInt64} (h : b.toNat ≤ a.toNat) : (a - b).toNat = a.toNat - b.toNat := UInt64.toNat_sub_of_le _ _ (UInt64.le_iff_toNat_le.mpr h)

mutual
theorem modifyDag_spec (env : Env) : ∀ (n : Node) (off : UInt64) (buf : Bytes) (svc : Svc) (c : Bytes),
    SizesTrue n → content n = some c → c.length < 2 ^ 64 → off.toNat ≤ c.length →
    ModResult env n c off.toNat buf svc (modifyDag env n off buf svc)
  | .other _, _, _, _, _, hs, _, _, _ => hs.elim
  | .raw d b, off, buf, svc, c, hs, hc, hl, ho => by
    simp only [content, Option.some.injEq] at hc
    subst hc
    rw [modifyDag]
    rw [if_neg (by omega)]
    dsimp only
    rcases Svc.add_cases env (.raw (writeInto d off.toNat buf).1 (b.withCodec Builder.rawCodec)) svc with ⟨s', h1, h2, h3⟩ | ⟨s', h1, h2, h3⟩
    · rw [h1]
      refine ⟨trivial, rfl, rfl, fun m h => h.elim, fun x hx => .inr ?_, h2⟩
      rw [reach_raw hx, h3]; simp
    · rw [h1]; exact ⟨h2, .inr ⟨rfl, .inl ⟨_, h3⟩⟩⟩
  | .proto d [] b, off, buf, svc, c, hs, hc, hl, ho => by
    simp only [SizesTrue] at hs
    obtain ⟨m, hm, hf, -, hb, hfs, -⟩ := hs
    rw [contentLen_of hc] at hfs
    simp only [content, hm, hf, if_true, Option.some.injEq] at hc
    subst hc
    rw [modifyDag]
    simp only [FSNode.fromBytes, hm]
    rw [if_neg (show ¬ (FSNode.data ⟨m⟩).length < off.toNat from Nat.not_lt.mpr ho)]
    have hwf := Pb.Data.unmarshal_wf hm
    have hwf' : ({ m with data := m.data.map (fun _ => (writeInto (m.data.getD []) off.toNat buf).1) } : Pb.Data).WF := by
      refine ⟨hwf.typ, ?_, hwf.unrec⟩
      intro x hx
      simp only [Option.map_eq_some_iff] at hx
      obtain ⟨y, hy, rfl⟩ := hx
      rw [writeInto_length ho]; exact hl
    obtain ⟨bytes, hb1, hb2⟩ := Pb.Data.unmarshal_marshal _ hwf'
    simp only [FSNode.getBytes, FSNode.data, Pb.Data.getData, hb1]
    have hdata : (m.data.map (fun _ => (writeInto (m.data.getD []) off.toNat buf).1)).getD [] = (writeInto (m.data.getD []) off.toNat buf).1 := by
      cases hd : m.data with
      | none => simp [writeInto]
      | some x => simp
    have hcont : content (.proto bytes [] b) = some (writeInto (m.data.getD []) off.toNat buf).1 := by
      simp only [content, hb2]
      split
      · rw [hdata]
      · rename_i h; exact absurd hf h
    rcases Svc.add_cases env (.proto bytes [] b) svc with ⟨s', h1, h2, h3⟩ | ⟨s', h1, h2, h3⟩
    · rw [h1]
      refine ⟨?_, hcont, rfl, ?_, fun x hx => .inr ?_, h2⟩
      · refine ⟨_, hb2, hf, by simp, hb, ?_, trivial⟩
        rw [contentLen_of hcont, writeInto_length ho]; exact hfs
      · intro k hk
        obtain ⟨⟨msg, hmsg, he⟩, -⟩ := hk
        rw [hm] at hmsg; cases hmsg
        refine ⟨⟨_, hb2, ?_⟩, trivial⟩
        rw [hdata, he]
        simp [writeInto]
      · rw [reach_leaf hx, h3]; simp
    · rw [h1]; exact ⟨h2, .inr ⟨rfl, .inl ⟨_, h3⟩⟩⟩
  | .proto d (l :: ls) b, off, buf, svc, c, hs, hc, hl, ho => by
    have hs0 := hs
    have hc0 := hc
    simp only [SizesTrue] at hs
    obtain ⟨m, hm, hf, hd, hb, hfs, hsl⟩ := hs
    rw [contentLen_of hc] at hfs
    simp only [content] at hc
    have hL := modifyLinks_spec env (l :: ls) 0 off buf svc c hsl hc (by simpa using hl) (by simp) (by simpa using ho)
    rw [modifyDag]
    simp only [FSNode.fromBytes, hm, FSNode.blockSizes, hb]
    generalize modifyLinks env ((l :: ls).map (fun l => UInt64.ofNat (contentLen l.target))) (l :: ls) 0 off buf svc = R at hL ⊢
    obtain ⟨r, ls', rest, s1⟩ := R
    cases r with
    | some e =>
      exact ⟨hL.1, hL.2.mono (fun x ⟨l, hl, hx⟩ => .step (by simpa [Node.links] using hl) hx)⟩
    | none =>
      simp only [UInt64.toNat_zero, Nat.sub_zero] at hL
      dsimp only
      rcases Svc.add_cases env (.proto d ls' b) s1 with ⟨s', h1, h2, h3⟩ | ⟨s', h1, h2, h3⟩
      · rw [h1]
        have hne : ls' ≠ [] := by intro h; have := hL.lens; simp [h] at this
        have hcont : content (.proto d ls' b) = some (writeInto c off.toNat buf).1 := by
          obtain ⟨l', ls', rfl⟩ := List.exists_cons_of_ne_nil hne
          simp only [content]; exact hL.cont
        refine ⟨⟨m, hm, hf, fun _ => hd (by simp), by rw [hb, hL.lens], ?_, hL.sizes⟩, hcont, hL.rest, ?_, ?_, hL.ext.trans h2⟩
        · rw [contentLen_of hcont, writeInto_length ho]; exact hfs
        · intro k hk; exact ⟨hk.1, hL.grow k 0 hk.2⟩
        · intro x hx
          cases hx with
          | refl => right; rw [h3]; simp
          | step hl' hx =>
            rcases hL.reach _ hl' x hx with ⟨y, hy, hx⟩ | hx
            · exact .inl (.step (by simpa [Node.links] using hy) hx)
            · exact .inr (h2.mem hx)
      · rw [h1]; exact ⟨hL.ext.trans h2, .inr ⟨rfl, .inl ⟨_, h3⟩⟩⟩
theorem modifyLinks_spec (env : Env) : ∀ (ls : List Link) (cur off : UInt64) (buf : Bytes) (svc : Svc) (c : Bytes),
    SizesTrueL ls → contentL ls = some c → cur.toNat + c.length < 2 ^ 64 → cur.toNat ≤ off.toNat → off.toNat ≤ cur.toNat + c.length →
    ModLResult env ls c (off.toNat - cur.toNat) buf svc
      (modifyLinks env (ls.map (fun l => UInt64.ofNat (contentLen l.target))) ls cur off buf svc)
  | [], cur, off, buf, svc, c, _, hc, hl, ho1, ho2 => by
    simp only [contentL, Option.some.injEq] at hc
    subst hc
    rw [List.map_nil, modifyLinks]
    exact ⟨trivial, by simp [writeInto, contentL], by simp [writeInto], rfl, fun _ _ h => h, by simp, .refl _⟩
  | .mk nm sz child :: ls, cur, off, buf, svc, c, hs, hc, hl, ho1, ho2 => by
    obtain ⟨hs1, hs2⟩ := hs
    obtain ⟨a, ha⟩ := sizesTrue_content hs1
    obtain ⟨b, hb⟩ := sizesTrueL_content hs2
    simp only [contentL, ha, hb, Option.some.injEq] at hc
    subst hc
    rw [List.length_append] at hl ho2
    rw [List.map_cons, modifyLinks]
    rw [show contentLen (Link.target (.mk nm sz child)) = a.length from contentLen_of ha]
    have hcur : (cur + UInt64.ofNat a.length).toNat = cur.toNat + a.length := uadd rfl (by omega)
    by_cases hlt : cur + UInt64.ofNat a.length > off
    · rw [if_pos hlt]
      have hlt' : off.toNat < cur.toNat + a.length := by rw [← hcur]; exact UInt64.lt_iff_toNat_lt.mp hlt
      rcases Svc.get_cases env child svc with ⟨s1, h1, h2⟩ | ⟨s1, h1, h2, h3⟩
      · rw [h1]
        dsimp only
        have hsub : (off - cur).toNat = off.toNat - cur.toNat := usub ho1
        have hM := modifyDag_spec env child (off - cur) buf s1 a hs1 ha (by omega) (by omega)
        rw [hsub] at hM
        have hw := writeInto_left a b (off.toNat - cur.toNat) buf (by omega)
        revert hM
        rcases modifyDag env child (off - cur) buf s1 with ⟨r, n', rest, s2⟩
        intro hM
        cases r with
        | error e =>
          exact ⟨h2.trans hM.1, hM.2.mono (fun x hx => ⟨.mk nm sz child, by simp, hx⟩)⟩
        | ok k =>
          have hk : contentLen k = a.length := by rw [contentLen_of hM.cont, writeInto_length (by omega)]
          dsimp only
          by_cases he : rest.isEmpty
          · rw [if_pos he]
            rw [List.isEmpty_iff] at he
            have hr := hM.rest
            rw [he] at hr
            refine ⟨⟨hM.sizes, hs2⟩, ?_, ?_, ?_, ?_, ?_, h2.trans hM.ext⟩
            · rw [hw]; simp only [contentL, hM.cont, hb, ← hr, writeInto_nil]
            · rw [hw]; simp only [← hr, writeInto_nil, he]
            · simp [Link.target, hk, contentLen_of ha]
            · intro m i hg; exact ⟨fun hi => hM.grow m (hg.1 hi), hg.2⟩
            · intro l' hl' x hx
              rcases List.mem_cons.mp hl' with rfl | hl'
              · rcases hM.reach x hx with h | h
                · exact .inl ⟨.mk nm sz child, by simp, h⟩
                · exact .inr h
              · exact .inl ⟨l', by simp [hl'], hx⟩
          · rw [if_neg he]
            have hL := modifyLinks_spec env ls (cur + UInt64.ofNat a.length) (cur + UInt64.ofNat a.length) rest s2 b hs2 hb (by omega) (Nat.le_refl _) (by omega)
            rw [Nat.sub_self, hM.rest] at hL
            rw [hM.rest]
            revert hL
            rcases modifyLinks env (ls.map (fun l => UInt64.ofNat (contentLen l.target))) ls (cur + UInt64.ofNat a.length)
              (cur + UInt64.ofNat a.length) (writeInto a (off.toNat - cur.toNat) buf).2 s2 with ⟨r, ls', rest', s3⟩
            intro hL
            cases r with
            | some e => exact ⟨(h2.trans hM.ext).trans hL.1, hL.2.mono (fun x ⟨l, hl, hx⟩ => ⟨l, by simp [hl], hx⟩)⟩
            | none =>
              refine ⟨⟨hM.sizes, hL.sizes⟩, ?_, by rw [hw]; exact hL.rest, ?_, ?_, ?_, (h2.trans hM.ext).trans hL.ext⟩
              · rw [hw]; simp only [contentL, hM.cont, hL.cont]
              · rw [List.map_cons, List.map_cons, hL.lens]; simp [Link.target, hk, contentLen_of ha]
              · intro m i hg; exact ⟨fun hi => hM.grow m (hg.1 hi), hL.grow m _ hg.2⟩
              · intro l' hl' x hx
                rcases List.mem_cons.mp hl' with rfl | hl'
                · rcases hM.reach x hx with h | h
                  · exact .inl ⟨.mk nm sz child, by simp, h⟩
                  · exact .inr (hL.ext.mem h)
                · rcases hL.reach l' hl' x hx with ⟨l, hl, h⟩ | h
                  · exact .inl ⟨l, by simp [hl], h⟩
                  · exact .inr h
      · rw [h1]
        exact ⟨h2, .inl ⟨rfl, _, child, ⟨.mk nm sz child, by simp, .refl _⟩, h3⟩⟩
    · rw [if_neg hlt]
      have hge : cur.toNat + a.length ≤ off.toNat := by
        rw [← hcur]; exact Nat.le_of_not_lt (fun h => hlt (UInt64.lt_iff_toNat_lt.mpr h))
      have hL := modifyLinks_spec env ls (cur + UInt64.ofNat a.length) off buf svc b hs2 hb (by omega) (by omega) (by omega)
      have hw := writeInto_right a b (off.toNat - cur.toNat) buf (by omega)
      rw [hcur, show off.toNat - (cur.toNat + a.length) = off.toNat - cur.toNat - a.length by omega] at hL
      revert hL
      rcases modifyLinks env (ls.map (fun l => UInt64.ofNat (contentLen l.target))) ls (cur + UInt64.ofNat a.length) off buf svc with ⟨r, ls', rest', s3⟩
      intro hL
      cases r with
      | some e => exact ⟨hL.1, hL.2.mono (fun x ⟨l, hl, hx⟩ => ⟨l, by simp [hl], hx⟩)⟩
      | none =>
        refine ⟨⟨hs1, hL.sizes⟩, ?_, by rw [hw]; exact hL.rest, ?_, ?_, ?_, hL.ext⟩
        · rw [hw]; simp only [contentL, ha, hL.cont]
        · rw [List.map_cons, List.map_cons, hL.lens]
        · intro m i hg; exact ⟨hg.1, hL.grow m _ hg.2⟩
        · intro l' hl' x hx
          rcases List.mem_cons.mp hl' with rfl | hl'
          · exact .inl ⟨.mk nm sz child, by simp, hx⟩
          · rcases hL.reach l' hl' x hx with ⟨l, hl, h⟩ | h
            · exact .inl ⟨l, by simp [hl], h⟩
            · exact .inr h
end

/-! ### `dagTruncate` -/

/-- A successful `dagTruncate`: everything below the returned node is old or stored. -/
structure TruncOK (n : Node) (c : Bytes) (size : Nat) (svc : Svc) (k : Node) (svc' : Svc) : Prop where
  sizes : SizesTrue k
  cont : content k = some (c.take size)
  grow : ∀ m, Growable m n → Growable m k
  reach : ∀ x, Reach k x → x = k ∨ Reach n x ∨ x ∈ svc'.stored
  ext : svc.Ext svc'

def TruncResult (env : Env) (n : Node) (c : Bytes) (size : Nat) (svc : Svc) : Except Err Node × Svc → Prop
  | (.ok k, svc') => TruncOK n c size svc k svc'
  | (.error e, svc') => svc.Ext svc' ∧ Refused env (Reach n) e

/-- The payload `fs` collected for the links `kept`, of total length `cur`. -/
structure Coll (fs : FSNode) (kept : List Link) (c : Bytes) : Prop where
  typ : IsFileMsg fs.format
  data : fs.format.data.getD [] = []
  wf : fs.format.WF
  blocks : fs.format.blocksizes = kept.map (fun l => UInt64.ofNat (contentLen l.target))
  fsize : fs.format.filesize.getD 0 = UInt64.ofNat c.length
  cont : contentL kept = some c
  sizes : SizesTrueL kept

theorem Coll.add {fs : FSNode} {kept : List Link} {c : Bytes} (h : Coll fs kept c) {n : Node} {a : Bytes} (hs : SizesTrue n)
    (hc : content n = some a) (nm : Bytes) (sz : UInt64) {s : UInt64} (he : s = UInt64.ofNat a.length) :
    Coll (fs.addBlockSize s) (kept ++ [.mk nm sz n]) (c ++ a) := by
  subst he
  refine ⟨h.typ, h.data, ⟨h.wf.typ, h.wf.data, h.wf.unrec⟩, ?_, ?_, ?_, ?_⟩
  · simp [FSNode.addBlockSize, FSNode.updateFilesize, h.blocks, Link.target, contentLen, hc]
  · have := h.fsize
    simp only [FSNode.addBlockSize, FSNode.updateFilesize, Pb.Data.getFilesize, Option.getD_some, List.length_append]
    rw [this, UInt64.ofNat_add]
  · rw [contentL_append, h.cont]; simp [contentL, hc]
  · rw [sizesTrueL_append]; exact ⟨h.sizes, hs, trivial⟩

/-- The collected payload makes a truthful node. -/
theorem Coll.node {fs : FSNode} {l : Link} {ls : List Link} {c : Bytes} (h : Coll fs (ls ++ [l]) c) (b : Builder) :
    ∃ bytes, fs.getBytes = .ok bytes ∧ Pb.Data.unmarshal bytes = .ok fs.format ∧ content (.proto bytes (ls ++ [l]) b) = some c ∧
      SizesTrue (.proto bytes (ls ++ [l]) b) := by
  obtain ⟨bytes, hb, hu⟩ := Pb.Data.unmarshal_marshal _ h.wf
  have hc : content (.proto bytes (ls ++ [l]) b) = some c := by
    have := h.cont
    cases ls with
    | nil => simpa [content] using this
    | cons x ls => simpa [content] using this
  refine ⟨bytes, hb, hu, hc, fs.format, hu, h.typ, fun _ => h.data, h.blocks, ?_, h.sizes⟩
  rw [contentLen_of hc]; exact h.fsize

/-- A successful loop of `dagTruncate`. -/
structure TruncLOK (ls kept : List Link) (c0 c : Bytes) (size : Nat) (svc : Svc) (fs' : FSNode) (kept' : List Link) (k : Node) (svc' : Svc) : Prop where
  coll : ∀ nm sz, Coll fs' (kept' ++ [.mk nm sz k]) (c0 ++ c.take (size - c0.length))
  grow : ∀ m, GrowableFrom m 0 (kept ++ ls) → ∀ nm sz, GrowableFrom m 0 (kept' ++ [.mk nm sz k])
  data : ∀ d, fs'.format.data.getD [] = d → d = []
  sub : ∀ l ∈ kept', l ∈ kept ++ ls
  reach : ∀ x, Reach k x → x = k ∨ (∃ l ∈ ls, Reach l.target x) ∨ x ∈ svc'.stored
  ext : svc.Ext svc'

def TruncLResult (env : Env) (ls kept : List Link) (c0 c : Bytes) (size : Nat) (svc : Svc) : Except Err (FSNode × List Link × Node) × Svc → Prop
  | (.ok (fs', kept', k), svc') => TruncLOK ls kept c0 c size svc fs' kept' k svc'
  | (.error e, svc') => svc.Ext svc' ∧ Refused env (fun x => ∃ l ∈ ls, Reach l.target x) e

theorem wrapData_unmarshal (x : Option Bytes) (h : ∀ d, x = some d → d.length < 2 ^ 64) :
    Pb.Data.unmarshal (wrapData x) = .ok { typ := some TRaw, data := x, filesize := some (UInt64.ofNat (x.getD []).length) } := by
  unfold wrapData
  exact mustMarshal_spec _ ⟨rfl, h, .nil⟩

mutual
theorem dagTruncate_spec (env : Env) : ∀ (n : Node) (size : UInt64) (svc : Svc) (c : Bytes),
    SizesTrue n → content n = some c → c.length < 2 ^ 64 → size.toNat < c.length →
    TruncResult env n c size.toNat svc (dagTruncate env n size svc)
  | .other _, _, _, _, hs, _, _, _ => hs.elim
  | .raw d b, size, svc, c, hs, hc, hl, ho => by
    simp only [content, Option.some.injEq] at hc
    subst hc
    rw [dagTruncate, if_neg (by omega)]
    exact ⟨trivial, rfl, fun m h => h.elim, fun x hx => .inl (reach_raw hx), .refl _⟩
  | .proto d [] b, size, svc, c, hs, hc, hl, ho => by
    simp only [SizesTrue] at hs
    obtain ⟨m, hm, hf, -, hb, hfs, -⟩ := hs
    simp only [content, hm, hf, if_true, Option.some.injEq] at hc
    subst hc
    rw [dagTruncate]
    simp only [FSNode.fromBytes, hm]
    rw [if_neg (show ¬ (FSNode.data ⟨m⟩).length < size.toNat from Nat.not_lt.mpr (Nat.le_of_lt ho))]
    obtain ⟨x, hx⟩ : ∃ x, m.data = some x := by
      cases hd : m.data with
      | none => simp [hd] at ho
      | some x => exact ⟨x, rfl⟩
    simp only [hx, Option.map_some, Option.getD_some] at ho hl ⊢
    have hu := wrapData_unmarshal (some (x.take size.toNat)) (by intro d hd; cases hd; rw [List.length_take]; omega)
    have hcont : content (.proto (wrapData (some (x.take size.toNat))) [] b) = some (x.take size.toNat) := by
      simp [content, hu, IsFileMsg]
    refine ⟨⟨_, hu, .inr rfl, by simp, rfl, ?_, trivial⟩, hcont, ?_, fun y hy => .inl (reach_leaf hy), .refl _⟩
    · rw [contentLen_of hcont]; rfl
    · intro k hk
      obtain ⟨⟨msg, hmsg, he⟩, -⟩ := hk
      rw [hm] at hmsg; cases hmsg
      simp only [hx, Option.getD_some] at he
      subst he
      simp at ho
  | .proto d (l :: ls) b, size, svc, c, hs, hc, hl, ho => by
    simp only [SizesTrue] at hs
    obtain ⟨m, hm, hf, hd, hb, hfs, hsl⟩ := hs
    have hd := hd (by simp)
    simp only [content] at hc
    have hwf := Pb.Data.unmarshal_wf hm
    have h0 : Coll (FSNode.removeAllBlockSizes ⟨m⟩) [] [] := by
      refine ⟨hf, hd, ⟨hwf.typ, hwf.data, hwf.unrec⟩, rfl, ?_, rfl, trivial⟩
      simp [FSNode.removeAllBlockSizes, FSNode.data, Pb.Data.getData, hd]
    have hL := truncLinks_spec env (l :: ls) 0 size (FSNode.removeAllBlockSizes ⟨m⟩) [] svc [] c hsl hc (by simpa using hl) rfl (by simp) (by simpa using ho) h0
    rw [dagTruncate]
    simp only [FSNode.fromBytes, hm]
    generalize truncLinks env (l :: ls) 0 size (FSNode.removeAllBlockSizes ⟨m⟩) [] svc = R at hL ⊢
    obtain ⟨r, s1⟩ := R
    cases r with
    | error e => exact ⟨hL.1, hL.2.mono (fun x ⟨l, hl, hx⟩ => .step (by simpa [Node.links] using hl) hx)⟩
    | ok r =>
      obtain ⟨fs', kept', k⟩ := r
      dsimp only
      rcases Svc.add_cases env k s1 with ⟨s', h1, h2, h3⟩ | ⟨s', h1, h2, h3⟩
      · rw [h1]
        dsimp only
        obtain ⟨bytes, hb1, hb2, hcont, hst⟩ := (hL.coll [] k.size).node b
        rw [hb1]
        simp only [List.length_nil, Nat.sub_zero, List.nil_append] at hcont
        refine ⟨hst, hcont, ?_, ?_, hL.ext.trans h2⟩
        · intro q hq
          exact ⟨⟨_, hb2, (hL.coll [] k.size).data⟩, hL.grow q hq.2 _ _⟩
        · intro x hx
          cases hx with
          | refl => exact .inl rfl
          | step hl' hx =>
            right
            rcases List.mem_append.mp hl' with hl' | hl'
            · exact .inl (.step (by simpa [Node.links] using hL.sub _ hl') hx)
            · obtain rfl : _ = makeLink [] k := by simpa using hl'
              rcases hL.reach x hx with rfl | ⟨y, hy, hx⟩ | hx
              · right; rw [h3]; simp
              · exact .inl (.step (by simpa [Node.links] using hy) hx)
              · exact .inr (h2.mem hx)
      · rw [h1]; exact ⟨hL.ext.trans h2, .inr ⟨rfl, .inl ⟨_, h3⟩⟩⟩
theorem truncLinks_spec (env : Env) : ∀ (ls : List Link) (cur size : UInt64) (fs : FSNode) (kept : List Link) (svc : Svc) (c0 c : Bytes),
    SizesTrueL ls → contentL ls = some c → cur.toNat + c.length < 2 ^ 64 → cur.toNat = c0.length → cur.toNat ≤ size.toNat →
    size.toNat < cur.toNat + c.length → Coll fs kept c0 →
    TruncLResult env ls kept c0 c size.toNat svc (truncLinks env ls cur size fs kept svc)
  | [], cur, size, fs, kept, svc, c0, c, _, hc, _, _, ho1, ho2, _ => by
    simp only [contentL, Option.some.injEq] at hc
    subst hc
    simp at ho2; omega
  | .mk nm sz child :: ls, cur, size, fs, kept, svc, c0, c, hs, hc, hl, h0, ho1, ho2, hcoll => by
    obtain ⟨hs1, hs2⟩ := hs
    obtain ⟨a, ha⟩ := sizesTrue_content hs1
    obtain ⟨b, hb⟩ := sizesTrueL_content hs2
    simp only [contentL, ha, hb, Option.some.injEq] at hc
    subst hc
    rw [List.length_append] at hl ho2
    rw [truncLinks]
    rcases Svc.get_cases env child svc with ⟨s1, h1, h2⟩ | ⟨s1, h1, h2, h3⟩
    · rw [h1]
      simp only [fileSize_true hs1 ha]
      have hcur : (cur + UInt64.ofNat a.length).toNat = cur.toNat + a.length := uadd rfl (by omega)
      by_cases hlt : size < cur + UInt64.ofNat a.length
      · rw [if_pos hlt]
        have hlt' : size.toNat < cur.toNat + a.length := by rw [← hcur]; exact UInt64.lt_iff_toNat_lt.mp hlt
        have hsub : (size - cur).toNat = size.toNat - cur.toNat := usub ho1
        have hT := dagTruncate_spec env child (size - cur) s1 a hs1 ha (by omega) (by omega)
        rw [hsub] at hT
        generalize dagTruncate env child (size - cur) s1 = R at hT ⊢
        obtain ⟨r, s2⟩ := R
        cases r with
        | error e => exact ⟨h2.trans hT.1, hT.2.mono (fun x hx => ⟨.mk nm sz child, by simp, hx⟩)⟩
        | ok k =>
          have htake : (a ++ b).take (size.toNat - c0.length) = a.take (size.toNat - cur.toNat) := by
            rw [List.take_append_of_le_length (by omega), h0]
          have hco : ∀ nm sz, Coll (fs.addBlockSize (size - cur)) (kept ++ [.mk nm sz k]) (c0 ++ a.take (size.toNat - cur.toNat)) := by
            intro nm sz
            refine hcoll.add hT.sizes hT.cont nm sz ?_
            rw [List.length_take, ← hsub, Nat.min_eq_left (by omega), UInt64.ofNat_toNat]
          refine ⟨?_, ?_, fun d h => by rw [← h]; exact (hco [] 0).data, fun l hl => List.mem_append_left _ hl, ?_, h2.trans hT.ext⟩
          · rw [htake]; exact hco
          · intro m hg nm' sz'
            rw [growableFrom_append] at hg ⊢
            exact ⟨hg.1, fun hi => hT.grow m (hg.2.1 hi), trivial⟩
          · intro x hx
            rcases hT.reach x hx with h | h | h
            · exact .inl h
            · exact .inr (.inl ⟨.mk nm sz child, by simp, h⟩)
            · exact .inr (.inr h)
      · rw [if_neg hlt]
        have hge : cur.toNat + a.length ≤ size.toNat := by
          rw [← hcur]; exact Nat.le_of_not_lt (fun h => hlt (UInt64.lt_iff_toNat_lt.mpr h))
        have hL := truncLinks_spec env ls (cur + UInt64.ofNat a.length) size (fs.addBlockSize (UInt64.ofNat a.length))
          (kept ++ [.mk nm sz child]) s1 (c0 ++ a) b hs2 hb (by omega) (by rw [hcur, List.length_append, h0]) (by omega) (by omega)
          (hcoll.add hs1 ha nm sz rfl)
        generalize truncLinks env ls (cur + UInt64.ofNat a.length) size (fs.addBlockSize (UInt64.ofNat a.length)) (kept ++ [.mk nm sz child]) s1 = R at hL ⊢
        obtain ⟨r, s2⟩ := R
        cases r with
        | error e => exact ⟨h2.trans hL.1, hL.2.mono (fun x ⟨l, hl, hx⟩ => ⟨l, by simp [hl], hx⟩)⟩
        | ok r =>
          obtain ⟨fs', kept', k⟩ := r
          refine ⟨?_, ?_, hL.data, ?_, ?_, h2.trans hL.ext⟩
          · intro nm sz
            have := hL.coll nm sz
            rw [List.append_assoc] at this
            rw [List.take_append, List.take_of_length_le (l := a) (by omega)]
            rw [List.length_append] at this
            rw [show size.toNat - c0.length - a.length = size.toNat - (c0.length + a.length) by omega]
            exact this
          · intro m hg
            exact hL.grow m (by simpa using hg)
          · intro l hl
            simpa using hL.sub l hl
          · intro x hx
            rcases hL.reach x hx with h | ⟨l, hl, h⟩ | h
            · exact .inl h
            · exact .inr (.inl ⟨l, by simp [hl], h⟩)
            · exact .inr (.inr h)
    · rw [h1]
      exact ⟨h2, .inl ⟨rfl, _, child, ⟨.mk nm sz child, by simp, .refl _⟩, h3⟩⟩
end

end Unixfs.Mod
