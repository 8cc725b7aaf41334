import Verif.Props.Mod
import Verif.Mod.SingleBlock

/-! # C16, C26, C28, C32: every file that is a single block breaks

The counterexamples beside C16, C26, C28 and C32 are not special. A file of a single block that is
extended, through `trickle.Append` or a modifier, is replaced by the bytes beyond its end whatever its
content, the bytes written, the splitter and the DAG service. -/

namespace Unixfs.Props
open Unixfs Unixfs.Import Unixfs.Spec Unixfs.Mod

/-- A file of two bytes in one block. -/
theorem wOne : ∃ d bl, wFile false [[1, 2]] = .proto d [] bl ∧ SizesTrue (.proto d [] bl) ∧ content (.proto d [] bl) = some [1, 2] := by
  obtain ⟨r, d, h, hr⟩ : ∃ r d, Balanced.layout 5 { maxlinks := defaultLinksPerBlock, src := [[1, 2]] } = .ok (r, d) ∧ r.node.links.length = 0 :=
    ok_of (fun r : Built => r.node.links.length) (by decide +kernel)
  have hf : Fresh { maxlinks := defaultLinksPerBlock } none [[1, 2]] none none { maxlinks := defaultLinksPerBlock, src := [[1, 2]] } := ⟨_, rfl, rfl⟩
  have h1 := C08_balanced_sizes hf (by decide) h
  have h2 := C06_balanced_content hf (by decide) h
  have hw : wFile false [[1, 2]] = r.node := by
    show (match Balanced.layout 5 { maxlinks := defaultLinksPerBlock, src := [[1, 2]] } with | .ok (r, _) => r.node | .error _ => .other []) = _
    rw [h]
  rw [hw]
  cases hn : r.node with
  | raw d b =>
    exact absurd (show (match Balanced.layout 5 { maxlinks := defaultLinksPerBlock, src := [[1, 2]] } with | .ok (r, _) => r.node.isProto | .error _ => false) = true by decide +kernel)
      (by rw [h]; simp [hn, Node.isProto])
  | other d => rw [hn] at h1; exact h1.elim
  | proto d ls b =>
    rw [hn] at hr h1 h2
    obtain rfl : ls = [] := List.length_eq_zero_iff.mp hr
    exact ⟨d, b, rfl, h1, h2⟩

section
variable {p : Params} {path : Option Bytes} {chunks : List Bytes} {fin : Option Err} {budget : Option Nat} {db db' : DB} {fuel h : Nat} {g : Node → Bool}

/-- C16 is false for every file that is a single dag-pb block: the content after a successful `Append` of
at least one chunk is the new chunks alone. -/
theorem C16_violated_always {d : Bytes} {b : Builder} {n : Node} (hf : Fresh p path chunks fin budget db) (h1 : 1 ≤ p.maxlinks) (hs : SizesTrue (.proto d [] b))
    (hne : chunks ≠ []) (hr : Trickle.append fuel h (.proto d [] b) { db with canGet := g } = .ok (n, db')) :
    content n = some chunks.flatten := by
  obtain ⟨hi, hp⟩ := Fresh.facts_get hf g
  obtain ⟨_, _, hm, _⟩ := Fresh.facts hf
  simp only [SizesTrue] at hs
  obtain ⟨msg, hu, hfm, -, hb, -, -⟩ := hs
  obtain ⟨ts, rfl, hch, he, hl⟩ := Trickle.append_leaf p.maxlinks (by omega) _ _ d b { db with canGet := g } hm hi hu (IsFileMsg.isSome hfm) (by simpa using hb) hr
  have hts : ts ≠ [] := by rintro rfl; exact hne (by rw [← hp, ← hch]; rfl)
  obtain ⟨l, ls, hll⟩ := cons_toLinks (DB.cfg { db with canGet := g } TRaw) hts
  rw [hll, content, ← hll]
  rw [content_toLinks _ (.inr rfl) _ (T.limL_of_chunks _ (by rw [hch]; exact hl)), hch, hp]

/-- The hypotheses are met: a block with two bytes, and two chunks. -/
example : ∃ d b n db', SizesTrue (.proto d [] b) ∧ content (.proto d [] b) = some [1, 2] ∧
    Trickle.append 4 1 (.proto d [] b) { maxlinks := 2, src := [[3], [4, 5]] } = .ok (n, db') ∧ content n = some [3, 4, 5] := by
  obtain ⟨d, b, hw, hs, hc⟩ := wOne
  obtain ⟨n, db', h, -⟩ : ∃ n db', Trickle.append 4 1 (wFile false [[1, 2]]) { maxlinks := 2, src := [[3], [4, 5]] } = .ok (n, db') ∧ n.links.length = 2 :=
    ok_of (fun r : Node => r.links.length) (by decide +kernel)
  rw [hw] at h
  exact ⟨d, b, n, db', hs, hc, h, C16_violated_always (p := { maxlinks := 2 }) (path := none) (fin := none) (budget := none) (chunks := [[3], [4, 5]]) (g := fun _ => true)
    (db := { maxlinks := 2, src := [[3], [4, 5]] }) ⟨_, rfl, rfl⟩ (by decide) hs (by decide) h⟩

end

theorem all_ok {rs : List MRes} (h : rs.all (fun r => r.err.isNone) = true) : ∀ r ∈ rs, r.err = none := by
  intro r hr
  have := List.all_eq_true.mp h r hr
  simpa using this

variable {env : Env} {d : Bytes} {bl : Builder} {c : Bytes}

theorem seek_new {dm : DM} (hs : SizesTrue dm.cur) (hc : content dm.cur = some c) (hl : c.length < 2 ^ 63) (hb : dm.buf = none) (hrd : dm.read = none)
    {off wh : Int} {new : UInt64} (ht : dm.seekTo (c.length : Int) off wh = .ok new) (ho : new.toNat ≤ c.length) :
    dm.seek env off wh = (.ok (new.toNat : Int), { dm with cw := new, ws := new }) := by
  rw [DM.seek, sync_clean hb]
  dsimp only
  have hfs : s64 (UInt64.ofNat c.length) = c.length := by
    rw [s64_of] <;> rw [UInt64.toNat_ofNat', Nat.mod_eq_of_lt (by omega)]
    exact hl
  have hsz : dm.size = .ok (c.length : Int) := by
    rw [DM.size, fileSize_true hs hc]
    dsimp only
    rw [hb]
    dsimp only
    rw [hfs]
  rw [hsz]
  dsimp only
  rw [ht]
  dsimp only
  have hn : s64 new = new.toNat := s64_of (by omega)
  rw [DM.seekTail, hn, if_neg (by omega)]
  dsimp only
  rw [hrd]

theorem seekTo_end (dm : DM) (k : Nat) : dm.seekTo (k : Int) (0 : Int64).toInt 2 = .ok (u64 (k : Int)) := by
  have : u64 (0 : Int64).toInt = 0 := by decide
  rw [DM.seekTo, if_neg (by decide), if_neg (by decide), if_pos rfl, this, UInt64.sub_zero]

/-- The end of a run: `Write`, `Sync` and `GetNode` on a single block. -/
theorem write_sync_leaf (hsp : SplitOK env) {dm : DM} (hcur : dm.cur = .proto d [] bl) (hs : SizesTrue (.proto d [] bl)) (hc : content (.proto d [] bl) = some c)
    (hl : c.length < 2 ^ 64) (hb : dm.buf = none) {b : Bytes} (ho : dm.ws.toNat ≤ c.length) (hgt : c.length < dm.ws.toNat + b.length)
    (hok : ∀ r ∈ (dm.run env [.write b, .sync, .getNode]).1, r.err = none) :
    ∃ n, (dm.run env [.write b, .sync, .getNode]).1 = [{ n := b.length }, {}, { node := some n }] ∧ content n = some (b.drop (c.length - dm.ws.toNat)) := by
  simp only [DM.run, List.mem_cons, List.not_mem_nil, or_false, forall_eq_or_imp, forall_eq] at hok ⊢
  obtain ⟨k1, k2, k3⟩ := hok
  simp only [DM.step, DM.write, hb, Option.getD_none, List.nil_append] at k1 k2 k3 ⊢
  split at k1
  · next hw =>
    rw [if_pos hw] at k2 k3 ⊢
    generalize hsy : DM.sync env { dm with read := none, buf := some b, cw := dm.cw + UInt64.ofNat b.length } = R at k1 k2 k3 ⊢
    obtain ⟨r, dm'⟩ := R
    cases r with
    | error e => simp [MRes.num] at k1
    | ok a =>
      obtain ⟨h1, h2⟩ := sync_leaf (dm := { dm with read := none, buf := some b, cw := dm.cw + UInt64.ofNat b.length }) hsp hcur hs hc hl rfl ho hgt hsy
      dsimp only
      rw [sync_clean h2]
      dsimp only
      rw [DM.getNode, sync_clean h2]
      exact ⟨dm'.cur, rfl, h1⟩
  · next hw =>
    rw [if_neg hw] at k2 k3 ⊢
    dsimp only at k2 k3 ⊢
    generalize hsy : DM.sync env { dm with read := none, buf := some b, cw := dm.cw + UInt64.ofNat b.length } = R at k2 k3 ⊢
    obtain ⟨r, dm'⟩ := R
    cases r with
    | error e => simp [MRes.unit] at k2
    | ok a =>
      obtain ⟨h1, h2⟩ := sync_leaf (dm := { dm with read := none, buf := some b, cw := dm.cw + UInt64.ofNat b.length }) hsp hcur hs hc hl rfl ho hgt hsy
      dsimp only
      rw [DM.getNode, sync_clean h2]
      exact ⟨dm'.cur, rfl, h1⟩

/-- C26 and C27 are false for every file that is a single dag-pb block, and every write that begins within
it and ends beyond its end: if no call fails, then what is left of the file is the bytes beyond the end. -/
theorem C26_violated_always (hsp : SplitOK env) (hs : SizesTrue (.proto d [] bl)) (hc : content (.proto d [] bl) = some c) (hl : c.length < 2 ^ 63)
    (off : Int64) (h0 : 0 ≤ off.toInt) (ho : off.toInt ≤ c.length) (b : Bytes) (hgt : (c.length : Int) < off.toInt + b.length)
    (hok : ∀ r ∈ results env (.proto d [] bl) [.seek off 0, .write b, .sync, .getNode], r.err = none) :
    ∃ n, results env (.proto d [] bl) [.seek off 0, .write b, .sync, .getNode] = [{ n := off.toInt }, { n := b.length }, {}, { node := some n }] ∧
      content n = some (b.drop (c.length - off.toInt.toNat)) := by
  have hu : (u64 off.toInt).toNat = off.toInt.toNat := u64_toNat h0 (by omega)
  simp only [results, newDagModifier] at hok ⊢
  rw [DM.run, DM.step, seek_new (c := c) (new := u64 off.toInt) hs hc hl rfl rfl rfl (by rw [hu]; omega)] at hok ⊢
  simp only [List.mem_cons, forall_eq_or_imp] at hok
  obtain ⟨n, h1, h2⟩ := write_sync_leaf hsp (dm := { cur := .proto d [] bl, pfx := { bl with codec := 0x70 }, rawLeaves := decide (bl.version > 0), cw := u64 off.toInt, ws := u64 off.toInt })
    rfl hs hc (by omega) rfl (b := b) (by dsimp only; rw [hu]; omega) (by dsimp only; rw [hu]; omega) hok.2
  refine ⟨n, ?_, by rw [h2, hu]⟩
  dsimp only
  rw [h1, hu, MRes.num, Int.toNat_of_nonneg h0]

/-- `[7, 8, 9]` at offset 1 of `[1, 2]` leaves `[8, 9]`. -/
example : ∃ n, (results wEnv (wFile false [[1, 2]]) [.seek 1 0, .write [7, 8, 9], .sync, .getNode]).getLast? = some { node := some n } ∧ content n = some [8, 9] := by
  have hok := all_ok (rs := results wEnv (wFile false [[1, 2]]) [.seek 1 0, .write [7, 8, 9], .sync, .getNode]) (by decide +kernel)
  obtain ⟨d, b, hw, hs, hc⟩ := wOne
  rw [hw] at hok ⊢
  obtain ⟨n, h1, h2⟩ := C26_violated_always wEnv_ok.1 hs hc (by decide) 1 (by decide) (by decide) [7, 8, 9] (by decide) hok
  exact ⟨n, by rw [h1]; rfl, h2⟩

/-- C32 is false for every file that is a single dag-pb block with at least one byte: if appending some
bytes to it reports no error, then the file consists of these bytes alone. -/
theorem C32_violated_always (hsp : SplitOK env) (hs : SizesTrue (.proto d [] bl)) (hc : content (.proto d [] bl) = some c) (hl : c.length < 2 ^ 63)
    (b : Bytes) (hb : b ≠ []) (hok : ∀ r ∈ results env (.proto d [] bl) [.seek 0 2, .write b, .sync, .getNode], r.err = none) :
    ∃ n, results env (.proto d [] bl) [.seek 0 2, .write b, .sync, .getNode] = [{ n := c.length }, { n := b.length }, {}, { node := some n }] ∧
      content n = some b := by
  have hu : (u64 (c.length : Int)).toNat = c.length := by rw [u64_toNat (by omega) (by omega)]; simp
  have hpos := List.length_pos_iff.mpr hb
  simp only [results, newDagModifier] at hok ⊢
  rw [DM.run, DM.step, seek_new (c := c) (new := u64 (c.length : Int)) hs hc hl rfl rfl (seekTo_end _ _) (by rw [hu])] at hok ⊢
  simp only [List.mem_cons, forall_eq_or_imp] at hok
  obtain ⟨n, h1, h2⟩ := write_sync_leaf hsp (dm := { cur := .proto d [] bl, pfx := { bl with codec := 0x70 }, rawLeaves := decide (bl.version > 0), cw := u64 (c.length : Int), ws := u64 (c.length : Int) })
    rfl hs hc (by omega) rfl (b := b) (by dsimp only; rw [hu]) (by dsimp only; rw [hu]; omega) hok.2
  refine ⟨n, ?_, by rw [h2, hu]; simp⟩
  dsimp only
  rw [h1, hu, MRes.num]

example : ∃ n, (results wEnv (wFile false [[1, 2]]) [.seek 0 2, .write [7, 8, 9], .sync, .getNode]).getLast? = some { node := some n } ∧ content n = some [7, 8, 9] := by
  have hok := all_ok (rs := results wEnv (wFile false [[1, 2]]) [.seek 0 2, .write [7, 8, 9], .sync, .getNode]) (by decide +kernel)
  obtain ⟨d, b, hw, hs, hc⟩ := wOne
  rw [hw] at hok ⊢
  obtain ⟨n, h1, h2⟩ := C32_violated_always wEnv_ok.1 hs hc (by decide) [7, 8, 9] (by decide) hok
  exact ⟨n, by rw [h1]; rfl, h2⟩

/-- C32 is false for every file that is a single raw block: some call fails. -/
theorem C32_raw_violated_always (hl : d.length < 2 ^ 63) (b : Bytes) (hb : b ≠ []) :
    ∃ r ∈ results env (.raw d bl) [.seek 0 2, .write b, .sync, .getNode], r.err ≠ none := by
  by_contra hok
  push Not at hok
  have hu : (u64 (d.length : Int)).toNat = d.length := by rw [u64_toNat (by omega) (by omega)]; simp
  have hpos := List.length_pos_iff.mpr hb
  simp only [results, newDagModifier] at hok
  rw [DM.run, DM.step, seek_new (dm := { cur := .raw d bl, pfx := { bl with codec := 0x70 }, rawLeaves := decide (bl.version > 0) }) (c := d) (new := u64 (d.length : Int)) trivial rfl hl rfl rfl (seekTo_end _ _) (by rw [hu])] at hok
  simp only [DM.run, List.mem_cons, List.not_mem_nil, or_false, forall_eq_or_imp, forall_eq] at hok
  obtain ⟨-, k1, k2, -⟩ := hok
  simp only [DM.step, DM.write, Option.getD_none, List.nil_append] at k1 k2
  split at k1
  · next hw =>
    split at k1
    · simp [MRes.num] at k1
    · next hsy => exact sync_raw (by rfl) (by omega) rfl (by dsimp only; rw [hu]) (by dsimp only; rw [hu]; omega) hsy
  · next hw =>
    rw [if_neg hw] at k2
    dsimp only at k2
    generalize hsy : DM.sync env _ = R at k2
    obtain ⟨r, dm'⟩ := R
    cases r with
    | error e => simp [MRes.unit] at k2
    | ok a => exact sync_raw (by rfl) (by omega) rfl (by dsimp only; rw [hu]) (by dsimp only; rw [hu]; omega) hsy

example : ∃ r ∈ results wEnv (.raw [1, 2] { version := 1, codec := Builder.rawCodec, mhType := 0x12, mhLen := 32 }) [.seek 0 2, .write [3], .sync, .getNode], r.err ≠ none :=
  C32_raw_violated_always (by decide) [3] (by decide)

/-- C28 is false for every file that is a single dag-pb block: if `Truncate` to a larger size reports no
error, then only the added zeros are left. -/
theorem C28_violated_always (hs : SizesTrue (.proto d [] bl)) (hc : content (.proto d [] bl) = some c) (hl : c.length < 2 ^ 63)
    (s : Int64) (hgt : (c.length : Int) < s.toInt) (hok : ∀ r ∈ results env (.proto d [] bl) [.truncate s, .getNode], r.err = none) :
    ∃ n, results env (.proto d [] bl) [.truncate s, .getNode] = [{}, { node := some n }] ∧ content n = some (zeros (s.toInt.toNat - c.length)) := by
  simp only [results, newDagModifier] at hok ⊢
  have hfs : s64 (UInt64.ofNat c.length) = c.length := by
    rw [s64_of] <;> rw [UInt64.toNat_ofNat', Nat.mod_eq_of_lt (by omega)]
    exact hl
  have hlt : s.toInt < 2 ^ 63 := s.toInt_lt
  simp only [DM.run, List.mem_cons, List.not_mem_nil, or_false, forall_eq_or_imp, forall_eq] at hok ⊢
  simp only [DM.step, DM.truncate, DM.sync, DM.size, fileSize_true hs hc, hfs] at hok ⊢
  rw [if_neg (by omega), if_pos hgt, Reader.i64_id (by omega) (by omega)] at hok ⊢
  simp only [DM.expandSparse] at hok ⊢
  generalize hap : DM.appendData env _ (zeroChunks (s.toInt - c.length).toNat) none = R at hok ⊢
  obtain ⟨r, s1⟩ := R
  cases r with
  | error e => simp [MRes.unit] at hok
  | ok k =>
    obtain ⟨-, hcont⟩ := appendData_leaf (by rfl) hs hap
    have hfl := zeroChunks_flatten (s.toInt - c.length).toNat
    have hk := hcont (by
      intro e
      rw [e] at hfl
      have := congrArg List.length hfl
      simp only [zeros, List.flatten_nil, List.length_nil, List.length_replicate] at this
      omega)
    dsimp only at hok ⊢
    generalize Svc.add env k s1 = R at hok ⊢
    obtain ⟨r, s2⟩ := R
    cases r with
    | error e => simp [MRes.unit] at hok
    | ok a =>
      refine ⟨k, ?_, ?_⟩
      · dsimp only
        rw [DM.getNode, sync_clean rfl]
        rfl
      · rw [hk, hfl]
        rw [show (s.toInt - c.length).toNat = s.toInt.toNat - c.length by omega]

example : ∃ n, (results wEnv (wFile false [[1, 2]]) [.truncate 5, .getNode]).getLast? = some { node := some n } ∧ content n = some [0, 0, 0] := by
  have hok := all_ok (rs := results wEnv (wFile false [[1, 2]]) [.truncate 5, .getNode]) (by decide +kernel)
  obtain ⟨d, b, hw, hs, hc⟩ := wOne
  rw [hw] at hok ⊢
  obtain ⟨n, h1, h2⟩ := C28_violated_always hs hc (by decide) 5 (by decide) hok
  exact ⟨n, by rw [h1]; rfl, h2⟩

/-- A file of one chunk made by `balanced.Layout` is a single block. -/
theorem balanced_one {p : Params} {path : Option Bytes} {ch : Bytes} {fin : Option Err} {budget : Option Nat} {db db' : DB} {fuel : Nat} {root : Built}
    (hf : Fresh p path [ch] fin budget db) (h2 : 2 ≤ p.maxlinks) (h : Balanced.layout fuel db = .ok (root, db')) :
    root.node = Cfg.leafNode ⟨p.rawLeaves, p.cidBuilder, TFile⟩ ch := by
  obtain ⟨hi, hp, hm, hr, hc, _⟩ := Fresh.facts hf
  obtain ⟨new, ha, hnm, hcase⟩ := balanced_ok hf h2 h
  rcases hcase with ⟨he, hn, _⟩ | ⟨t, d, hroot, hch, hleft, hcount, _⟩
  · rw [hp] at he; cases he
  · rw [Fresh.cfg hf] at hroot
    rw [hp] at hch
    have hd : d = 0 := by
      by_contra hne
      have := hcount (by omega)
      rw [hm, hp] at this
      have h4 := Nat.pow_pos (n := d - 1) (show 0 < p.maxlinks by omega)
      simp only [List.length_cons, List.length_nil] at this
      omega
    subst hd
    obtain ⟨x, rfl⟩ := hleft
    rw [hroot]
    simp only [T.chunks, List.cons.injEq, and_true] at hch
    rw [T.toNode, hch]

/-- C32 is false for every file of one chunk that `balanced.Layout` made without raw leaves: appending
to it leaves nothing of the chunk. -/
theorem C32_balanced_one_violated_always {p : Params} {path : Option Bytes} {ch : Bytes} {fin : Option Err} {budget : Option Nat} {db db' : DB} {fuel : Nat} {root : Built}
    (hsp : SplitOK env) (hf : Fresh p path [ch] fin budget db) (h2 : 2 ≤ p.maxlinks) (hr : p.rawLeaves = false) (h : Balanced.layout fuel db = .ok (root, db'))
    (b : Bytes) (hb : b ≠ []) (hok : ∀ r ∈ results env root.node [.seek 0 2, .write b, .sync, .getNode], r.err = none) :
    content root.node = some ch ∧
    ∃ n, results env root.node [.seek 0 2, .write b, .sync, .getNode] = [{ n := ch.length }, { n := b.length }, {}, { node := some n }] ∧ content n = some b := by
  have hs := C08_balanced_sizes hf h2 h
  have hc : content root.node = some ch := by simpa using C06_balanced_content hf h2 h
  have hlim := (C12_balanced_no_truncation hf h2 h).2 ch (by simp)
  have hlt : ch.length < 2 ^ 63 := by
    have : blockSizeLimit = 1048576 := by decide
    omega
  refine ⟨hc, ?_⟩
  have hn := balanced_one hf h2 h
  rw [Cfg.leafNode, hr] at hn
  simp only [Bool.false_eq_true, if_false] at hn
  rw [hn] at hs hc hok ⊢
  exact C32_violated_always hsp hs hc hlt b hb hok

example : ∃ r d n, Balanced.layout 5 { maxlinks := defaultLinksPerBlock, src := [[1, 2]] } = .ok (r, d) ∧
    (results wEnv r.node [.seek 0 2, .write [7], .sync, .getNode]).getLast? = some { node := some n } ∧ content n = some [7] := by
  obtain ⟨r, d, h, hr⟩ : ∃ r d, Balanced.layout 5 { maxlinks := defaultLinksPerBlock, src := [[1, 2]] } = .ok (r, d) ∧
      (results wEnv r.node [.seek 0 2, .write [7], .sync, .getNode]).countP (fun r => r.err.isSome) = 0 :=
    ok_of (fun r : Built => (results wEnv r.node [.seek 0 2, .write [7], .sync, .getNode]).countP (fun r => r.err.isSome)) (by decide +kernel)
  rw [List.countP_eq_zero] at hr
  obtain ⟨-, n, h1, h2⟩ := C32_balanced_one_violated_always (p := { maxlinks := defaultLinksPerBlock }) (path := none) (fin := none) (budget := none)
    wEnv_ok.1 ⟨_, rfl, rfl⟩ (by decide) rfl h [7] (by decide) (fun x hx => by simpa using hr x hx)
  exact ⟨r, d, n, h, by rw [h1]; rfl, h2⟩

end Unixfs.Props
