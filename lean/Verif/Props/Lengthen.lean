import Verif.Mod.Lengthen
import Verif.Props.AppendSame
import Verif.Props.Shorten
import Verif.Props.Kin

/-!
# C103: writing beyond the end of an imported file gives what importing everything gives

`AsModified` says with which options, `AddsAlike` for which numbers of chunks this holds.
-/

namespace Unixfs.Props
open Unixfs Unixfs.Mod Unixfs.Import Unixfs.Spec

theorem withCodec_same (b : Builder) (h : b.codec = 0x70) : b.withCodec 0x70 = b := by simp [Builder.withCodec, h]

/-- With these options the modifier makes nodes as the import does. -/
theorem asModified_nodes {p : Params} (h : AsModified p) {b : Builder} (hb : b = p.cidBuilder.getD .v0) (t : T) :
    t.toNode ⟨p.rawLeaves, p.cidBuilder, TRaw⟩ = t.toNode ⟨p.rawLeaves, some b, TRaw⟩ := by
  obtain ⟨-, h2, h3⟩ := h
  subst hb
  refine (toNode_congr (c := ⟨p.rawLeaves, p.cidBuilder, TRaw⟩) (c' := ⟨p.rawLeaves, some (p.cidBuilder.getD .v0), TRaw⟩) rfl (fun d => ?_)).1 t
  unfold Cfg.leafNode
  split
  · cases hc : p.cidBuilder with
    | none => rw [hc] at h3; simp_all [Builder.v0]
    | some b => rfl
  · rfl

theorem asModified_kin {p : Params} (h : AsModified p) (t : T) :
    Throughout (Kin (p.cidBuilder.getD .v0)) (t.toNode ⟨p.rawLeaves, p.cidBuilder, TRaw⟩) := by
  have hp : Cfg.pbBuilder ⟨p.rawLeaves, p.cidBuilder, TRaw⟩ = p.cidBuilder.getD .v0 := withCodec_same _ h.2.1
  refine T.rec (motive_1 := fun t => Throughout (Kin (p.cidBuilder.getD .v0)) (t.toNode ⟨p.rawLeaves, p.cidBuilder, TRaw⟩))
    (motive_2 := fun ts => ∀ l ∈ T.toLinks ⟨p.rawLeaves, p.cidBuilder, TRaw⟩ ts, Throughout (Kin (p.cidBuilder.getD .v0)) l.target)
    (fun d => ?_) (fun ts ih => ?_) (by simp [T.toLinks]) (fun t ts h1 h2 => ?_) t
  · rw [T.toNode]
    unfold Cfg.leafNode
    split
    · next hr =>
      cases hc : p.cidBuilder with
      | none => have := h.2.2; rw [hc] at this; simp_all [Builder.v0]
      | some b => exact throughout_iff.mpr ⟨rfl, by simp [Node.links]⟩
    · exact throughout_iff.mpr ⟨hp, by simp [Node.links]⟩
  · exact throughout_iff.mpr ⟨hp, ih⟩
  · intro l hl
    simp only [T.toLinks, List.mem_cons] at hl
    rcases hl with rfl | hl
    · exact h1
    · exact h2 l hl

/-- Careful calls inside the file, then a `Seek` and a `Write` that goes beyond the end. -/
theorem lengthen_inside {env : Env} {p : Params} {ts : List T} (hp : AsModified p) (hsp : SplitOK env) (hl : (T.node ts).Lim)
    (hlg : Trickle.LG defaultLinksPerBlock 0 ts False) (ops : List MOp) (off : Int64) (b : Bytes) (h0 : 0 ≤ off.toInt)
    (hoff : off.toInt.toNat ≤ (T.chunksL ts).flatten.length) (hb : (T.chunksL ts).flatten.length < off.toInt.toNat + b.length)
    (hmax : off.toInt.toNat + b.length < 2 ^ 63) (hr : CarefulRun False ⟨(T.chunksL ts).flatten, 0⟩ {} ops) (hT : ∀ op ∈ ops, ∀ s, op ≠ .truncate s)
    (hadd : AddsAlike defaultLinksPerBlock (T.chunksL ts).length (env.split (b.drop ((T.chunksL ts).flatten.length - off.toInt.toNat))).1.length)
    (hf : List.Forall₂ Fine (ops ++ [.seek off 0, .write b, .getNode]) (results env ((T.node ts).toNode ⟨p.rawLeaves, p.cidBuilder, TRaw⟩) (ops ++ [.seek off 0, .write b, .getNode]))) :
    ∃ n ts1 us, (results env ((T.node ts).toNode ⟨p.rawLeaves, p.cidBuilder, TRaw⟩) (ops ++ [.seek off 0, .write b, .getNode])).getLast? = some { node := some n } ∧
      (T.node ts).Edit (T.node ts1) ∧
      (T.chunksL ts1).flatten = (overlay ((⟨(T.chunksL ts).flatten, 0⟩ : File).after ops).data off.toInt.toNat b).take (T.chunksL ts).flatten.length ∧
      n = (T.node us).toNode ⟨p.rawLeaves, p.cidBuilder, TRaw⟩ ∧
      T.chunksL us = T.chunksL ts1 ++ (env.split (b.drop ((T.chunksL ts).flatten.length - off.toInt.toNat))).1 ∧ Trickle.LG defaultLinksPerBlock 0 us False := by
  have hc : Cfg.OK ⟨p.rawLeaves, p.cidBuilder, TRaw⟩ := cfgOK_raw p.rawLeaves p.cidBuilder
  have hlim := T.Lim.chunks hl
  obtain ⟨dm, e, hS⟩ := new_sim (sizesTrue_toNode _ hc _ hl) (content_toNode _ hc _ hl) (by simp only [T.chunks]; omega)
  simp only [results, e] at hf ⊢
  have hk0 := new_kin e (asModified_kin hp (.node ts))
  have hrb : rootBuilder ((T.node ts).toNode ⟨p.rawLeaves, p.cidBuilder, TRaw⟩) = p.cidBuilder.getD .v0 := by
    have h1 : Cfg.pbBuilder ⟨p.rawLeaves, p.cidBuilder, TRaw⟩ = p.cidBuilder.getD .v0 := withCodec_same _ hp.2.1
    have h2 := hp.2.1
    simp only [T.toNode, rootBuilder, h1]
    rw [← h2]
  have hfam := kin_root ((T.node ts).toNode ⟨p.rawLeaves, p.cidBuilder, TRaw⟩)
  rw [hrb] at hk0 hfam
  have hcur : dm.cur = (T.node ts).toNode ⟨p.rawLeaves, p.cidBuilder, TRaw⟩ := by
    unfold newDagModifier at e
    split at e <;> rename_i hT <;> cases e <;> exact hT.symm
  have hS' : Sim ((T.node ts).toNode ⟨p.rawLeaves, p.cidBuilder, TRaw⟩) False dm ⟨(T.chunksL ts).flatten, 0⟩ {} := by
    obtain ⟨f, hR, hV, hgf⟩ := hS
    have hb : f.buf = none := by
      cases h : f.buf with
      | none => rfl
      | some b =>
        have := hV.dirty (by rw [h]; rfl)
        cases this
    exact ⟨f, ⟨⟨hR.base.sizes, hR.base.cont, hR.base.ws, hR.base.cw, hR.base.buf, hR.base.lenc, hR.base.lenw, hR.base.lencw, False.elim, hR.base.store⟩, hR.rd⟩, hV, .inr (.inl hb)⟩
  obtain ⟨h1, h2⟩ := fine_append env _ _ _ hf
  obtain ⟨⟨tr, hS2⟩, hk⟩ := careful_run hsp hlim ops hS' (.inr ⟨rfl, _, .refl _, hcur⟩) hr hT h1
  have hsame := inside_length ops _ _ hr hT
  have hkin := run_kin (env := env) hfam ops dm hk0
  generalize hx : (⟨(T.chunksL ts).flatten, 0⟩ : File).after ops = x at hS2 hk hsame ⊢
  dsimp only at hsame
  rw [run_append]
  generalize hdm : (dm.run env ops).2 = dm1 at hS2 hk h2 hkin ⊢
  simp only [DM.run] at h2 ⊢
  rcases h2 with _ | ⟨h2, h3⟩
  rcases h3 with _ | ⟨h3, h4⟩
  rcases h4 with _ | ⟨h4, _⟩
  -- `Seek`
  have htgt : x.target off 0 = some ((off.toInt.toNat : Nat) : Int) := by
    simp only [File.target, if_true, Option.some.injEq]; omega
  obtain ⟨hS3, hk3⟩ := careful_step hsp hlim hS2 hk (.seek off 0) ⟨by simp, off.toInt.toNat, htgt, by omega, .inl (by rw [hsame]; exact hoff)⟩ (by simp) h2
  have hkin3 := step_kin (env := env) hfam (.seek off 0) hkin
  have hnext : x.next (.seek off 0) = ⟨x.data, off.toInt.toNat⟩ := by
    simp only [File.next, htgt, Int.toNat_natCast]
    rw [if_neg (by omega)]
  rw [hnext] at hS3 hk3
  generalize (dm1.step env (.seek off 0)).2 = dm2 at hS3 hk3 h3 h4 hkin3 ⊢
  obtain ⟨f, hR, hV, hgf⟩ := hS3
  have hfb : f.buf = none := by
    cases h : f.buf with
    | none => rfl
    | some b =>
      have := hV.dirty (by rw [h]; rfl)
      cases this
  have hfws : f.ws = off.toInt.toNat := by
    have := hV.wp
    simp only [F.pend, hfb, Option.getD_none, List.length_nil, Nat.add_zero, Track.next] at this
    exact this
  have hfc : f.c = x.data := by
    have := hV.data
    simp only [F.flush, hfb] at this
    exact this
  have hcw : f.cw = off.toInt.toNat := hV.pos
  obtain ⟨-, t1, ht1, hcur1⟩ := hk3.resolve_left (by dsimp only; rw [hsame]; show ¬ (T.chunksL ts).flatten.length < (T.chunksL ts).flatten.length; omega)
  obtain ⟨ts1, rfl⟩ : ∃ ts1, t1 = .node ts1 := by
    cases t1 with
    | leaf d => have := ht1.same; simp [T.Same] at this
    | node ts1 => exact ⟨ts1, rfl⟩
  have hlg1 : Trickle.LG defaultLinksPerBlock 0 ts1 False := Trickle.LG.of_same (by simpa only [T.Same] using ht1.same) hlg
  have hcnt : (T.chunksL ts1).length = (T.chunksL ts).length := by
    have := congrArg List.length ht1.lens
    simp only [List.length_map, T.chunks] at this
    exact this.symm
  -- the modifier after the bytes were put into the buffer
  have hR2 : R0 ((T.node ts).toNode ⟨p.rawLeaves, p.cidBuilder, TRaw⟩) False { dm2 with read := none, buf := some b, cw := dm2.cw + UInt64.ofNat b.length }
      { f with buf := some b, cw := f.cw + b.length, rd := false } := by
    have h := hR.base
    refine ⟨h.sizes, h.cont, h.ws, ?_, rfl, h.lenc, ?_, ?_, False.elim, h.store⟩
    · show (dm2.cw + UInt64.ofNat b.length).toNat = _
      rw [uadd rfl (by rw [h.cw]; omega), h.cw]
    · show f.ws + b.length < 2 ^ 63
      omega
    · show f.cw + b.length < 2 ^ 63
      omega
  have key : ∀ {a : Unit} {dm' : DM}, ({ dm2 with read := none, buf := some b, cw := dm2.cw + UInt64.ofNat b.length } : DM).sync env = (.ok a, dm') → ∃ ts2 us, (T.node ts).Edit (T.node ts2) ∧
      (T.chunksL ts2).flatten = (overlay x.data off.toInt.toNat b).take (T.chunksL ts).flatten.length ∧
      dm'.cur = (T.node us).toNode ⟨p.rawLeaves, p.cidBuilder, TRaw⟩ ∧
      T.chunksL us = T.chunksL ts2 ++ (env.split (b.drop ((T.chunksL ts).flatten.length - off.toInt.toNat))).1 ∧ Trickle.LG defaultLinksPerBlock 0 us False ∧ dm'.buf = none := by
    intro a dm' hS
    have hfl : f.c.length = (T.chunksL ts).flatten.length := by rw [hfc, hsame]
    obtain ⟨ts2, us, k1, k2, k3, k4, k5, k6⟩ := sync_grown (c := ⟨p.rawLeaves, p.cidBuilder, TRaw⟩) (ts := ts1) hc (ht1.lim hlim) hR2 rfl (by show f.ws ≤ f.c.length; omega) (by show f.c.length < f.ws + b.length; omega) hcur1
      (fun t => by
        show _ = T.toNode ⟨dm2.rawLeaves, some dm2.pfx, TRaw⟩ t
        rw [hkin3.raws, ← hp.2.2]
        exact asModified_nodes hp hkin3.pfx t) hlg1 (by
        show AddsAlike _ _ (env.split (b.drop (f.c.length - f.ws))).1.length
        rw [hcnt, hfl, hfws]; exact hadd) hS
    refine ⟨ts2, us, ht1.trans k1, ?_, k3, ?_, k5, k6⟩
    · rw [k2]; show (overlay f.c f.ws b).take f.c.length = _
      rw [hfl, hfws, hfc]
    · rw [k4]; show T.chunksL ts2 ++ (env.split (b.drop (f.c.length - f.ws))).1 = _
      rw [hfl, hfws]
  have hbuf2 : dm2.buf = none := by rw [hR.base.buf, hfb]
  simp only [DM.step, DM.write, hbuf2, Option.getD_none, List.nil_append] at h3 h4 ⊢
  by_cases hw : b.length > env.wbuf
  · rw [if_pos hw] at h3 h4 ⊢
    cases hsy : ({ dm2 with read := none, buf := some b, cw := dm2.cw + UInt64.ofNat b.length } : DM).sync env with
    | mk r d =>
      rw [hsy] at h3 h4
      cases r with
      | error e => obtain ⟨h3, -⟩ := h3; simp [MRes.num] at h3
      | ok a =>
        obtain ⟨ts2, us, k1, k2, k3, k4, k5, k6⟩ := key hsy
        refine ⟨d.cur, ts2, us, ?_, k1, k2, k3, k4, k5⟩
        simp [DM.getNode, DM.sync, k6]
  · rw [if_neg hw] at h3 h4 ⊢
    unfold DM.getNode at h4 ⊢
    cases hsy : ({ dm2 with read := none, buf := some b, cw := dm2.cw + UInt64.ofNat b.length } : DM).sync env with
    | mk r d =>
      dsimp only at h4 ⊢
      rw [hsy] at h4
      cases r with
      | error e => obtain ⟨h4, -⟩ := h4; simp at h4
      | ok a =>
        obtain ⟨ts2, us, k1, k2, k3, k4, k5, k6⟩ := key hsy
        refine ⟨d.cur, ts2, us, ?_, k1, k2, k3, k4, k5⟩
        simp

/-- C103: `Seek` to `off` inside the file and `Write` of bytes that go beyond its end. -/
theorem C103_write_partial {env : Env} {p : Params} {path : Option Bytes} {chunks : List Bytes} {fin : Option Err} {budget : Option Nat}
    {db db' : DB} {fuel : Nat} {ops : List MOp} {off : Int64} {b : Bytes} {root : Node} (hp : AsModified p) (hf : Fresh p path chunks fin budget db)
    (h : Trickle.layout fuel db = .ok (root, db')) (hsp : SplitOK env)
    (hr : CarefulRun False ⟨chunks.flatten, 0⟩ {} ops) (hT : ∀ op ∈ ops, ∀ s, op ≠ .truncate s) (h0 : 0 ≤ off.toInt) (hoff : off.toInt.toNat ≤ chunks.flatten.length)
    (hb : chunks.flatten.length < off.toInt.toNat + b.length) (hmax : off.toInt.toNat + b.length < 2 ^ 63)
    (hadd : AddsAlike 174 chunks.length (env.split (b.drop (chunks.flatten.length - off.toInt.toNat))).1.length)
    (hok : List.Forall₂ Fine (ops ++ [.seek off 0, .write b, .getNode]) (results env root (ops ++ [.seek off 0, .write b, .getNode]))) :
    ∃ n, (results env root (ops ++ [.seek off 0, .write b, .getNode])).getLast? = some { node := some n } ∧
      ∀ chunks' path' fin' budget' db2 db2' fuel' root',
        CutAlike chunks ((overlay ((⟨chunks.flatten, 0⟩ : File).after ops).data off.toInt.toNat b).take chunks.flatten.length) chunks' →
        Fresh p path' (chunks' ++ (env.split (b.drop (chunks.flatten.length - off.toInt.toNat))).1) fin' budget' db2 →
        Trickle.layout fuel' db2 = .ok (root', db2') → root' = n := by
  have hm : p.maxlinks = defaultLinksPerBlock := hp.1
  have h1 : 1 ≤ p.maxlinks := by rw [hm]; decide
  obtain ⟨_, _, ha, _⟩ := trickle_ok hf h1 h
  obtain ⟨ts, hroot, hch, hl⟩ := appendedAlike_tree h1 (.layout hf h)
  rw [hm] at hl
  have hlim : (T.node ts).Lim := T.lim_of_chunks _ (by simp only [T.chunks]; rw [hch]; exact ha.lim)
  obtain ⟨n, ts1, us, e1, e2, e3, e4, e5, e6⟩ := lengthen_inside (env := env) hp hsp hlim hl ops off b h0 (hch ▸ hoff) (hch ▸ hb) hmax (hch ▸ hr) hT (hch ▸ hadd) (hroot ▸ hok)
  rw [hch] at e3 e5
  refine ⟨n, hroot ▸ e1, fun chunks' path' fin' budget' db2 db2' fuel' root' hcut hf' h' => ?_⟩
  obtain ⟨vs, g1, g2, g3⟩ := appendedAlike_tree h1 (.layout hf' h')
  have hcc : T.chunksL ts1 = chunks' := chunks_inj (by rw [hcut.1, ← hch]; exact e2.lens.symm) (by rw [e3, hcut.2])
  rw [hcc, ← g2] at e5
  rw [hm] at g3
  have := (e6.same g3 (by rw [e5])).ext e5
  rw [e4, g1, this]

section Examples

/-- A splitter that makes chunks of one byte, and a DAG service that never fails. -/
def byteEnv : Env := { wEnv with split := fun b => (b.map (fun x => [x]), none) }

theorem byteEnv_ok : SplitOK byteEnv := by
  intro b
  refine ⟨fun _ => ?_, by simp [byteEnv]⟩
  show (b.map (fun x => [x])).flatten = b
  clear * - b
  induction b with
  | nil => rfl
  | cons x b ih => rw [List.map_cons, List.flatten_cons, ih]; rfl

/-- The CIDv1 builder of the imports below. -/
def longBuilder : Builder := ⟨1, 0x70, 0x12, 32⟩

def longDB (raw : Bool) (b : Option Builder) (chunks : List Bytes) : DB := { maxlinks := 174, src := chunks, rawLeaves := raw, cidBuilder := b }

def longTrickle (raw : Bool) (b : Option Builder) (chunks : List Bytes) : Node :=
  match Trickle.layout 9 (longDB raw b chunks) with | .ok (r, _) => r | .error _ => .other []

def longNode (n : Node) (ops : List MOp) : Option Node := (results byteEnv n ops).getLast?.bind MRes.node

example : AsModified { maxlinks := 174 } ∧ AsModified { maxlinks := 174, rawLeaves := true, cidBuilder := some longBuilder } := ⟨⟨rfl, rfl, rfl⟩, rfl, rfl, rfl⟩

example : Fresh { maxlinks := 174, rawLeaves := true, cidBuilder := some longBuilder } none [[1, 2], [3, 4]] none none (longDB true (some longBuilder) [[1, 2], [3, 4]]) := ⟨_, rfl, rfl⟩

/-- An edit, then three bytes of which two are beyond the end. -/
example : CarefulRun False ⟨[1, 2, 3, 4], 0⟩ {} [.writeAt [20] 1] ∧
    CutAlike [[1, 2], [3, 4]] ((overlay ((⟨[1, 2, 3, 4], 0⟩ : File).after [.writeAt [20] 1]).data 3 [40, 50, 60]).take 4) [[1, 20], [3, 40]] ∧
    (byteEnv.split ([40, 50, 60].drop (4 - 3))).1 = [[50], [60]] ∧ AddsAlike 174 2 2 := by
  refine ⟨by simp [CarefulRun, Careful], ⟨rfl, rfl⟩, rfl, .inr (.inl ⟨by decide, by decide⟩)⟩

example : List.Forall₂ Fine ([.writeAt [20] 1] ++ [.seek 3 0, .write [40, 50, 60], .getNode])
    (results byteEnv (longTrickle true (some longBuilder) [[1, 2], [3, 4]]) ([.writeAt [20] 1] ++ [.seek 3 0, .write [40, 50, 60], .getNode])) := by decide +kernel

example : longNode (longTrickle true (some longBuilder) [[1, 2], [3, 4]]) [.writeAt [20] 1, .seek 3 0, .write [40, 50, 60], .getNode] =
      some (longTrickle true (some longBuilder) [[1, 20], [3, 40], [50], [60]]) ∧
    longNode (longTrickle false none [[1, 2], [3, 4]]) [.writeAt [20] 1, .seek 3 0, .write [40, 50, 60], .getNode] = some (longTrickle false none [[1, 20], [3, 40], [50], [60]]) := by decide +kernel

/-- C103 does not hold for a file of raw leaves with CIDv0: the new leaves are not raw. -/
theorem C103_violated_leaves : (longNode (longTrickle true none [[1]]) [.seek 1 0, .write [2], .getNode]).map (fun n => n.links.map (fun l => l.target.isRaw)) = some [true, false] ∧
    (longTrickle true none [[1], [2]]).links.map (fun l => l.target.isRaw) = [true, true] := by decide +kernel

/-- C103 does not hold where the new chunks need more than one sub-DAG below a root that has none yet. -/
theorem C103_violated_many : (longNode (longTrickle false none [[1]]) [.seek 1 0, .write (List.replicate 348 7), .getNode]).map (fun n => n.links.length) = some 175 ∧
    (longTrickle false none ([1] :: List.replicate 348 [7])).links.length = 176 := by decide +kernel

end Examples

end Unixfs.Props
