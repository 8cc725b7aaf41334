import Verif.Import.Closed
import Verif.Import.BlockLen
import Verif.Mod.Loose

/-! # The blocks of files after many edits (C98)

The definitions in this file belong to proofs; they model no code.
-/

namespace Unixfs.Import
open Unixfs.Spec

/-- Payloads as the builder and the modifier write them. -/
structure Trim (m : Pb.Data) : Prop where
  typ : m.typ = some TFile ∨ m.typ = some TRaw
  data : ∀ x, m.data = some x → x.length ≤ blockSizeLimit
  hashType : m.hashType = none
  fanout : m.fanout = none
  unrec : m.unrec = []

theorem Trim.wf {m : Pb.Data} (h : Trim m) : m.WF :=
  ⟨by rcases h.typ with h | h <;> rw [h] <;> rfl, fun x hx => by have := h.data x hx; unfold blockSizeLimit at this; omega, by rw [h.unrec]; exact .nil⟩

/-- The payload of a node. -/
def Pay (d : Bytes) (k : Nat) : Prop := ∃ m, Trim m ∧ m.marshal = .ok d ∧ m.blocksizes.length = k

theorem Pay.msg {d : Bytes} {k : Nat} (h : Pay d k) {m : Pb.Data} (hm : Pb.Data.unmarshal d = .ok m) : Trim m ∧ m.marshal = .ok d ∧ m.blocksizes.length = k := by
  obtain ⟨m', h1, h2, h3⟩ := h
  obtain ⟨b, hb, hu⟩ := Pb.Data.unmarshal_marshal m' h1.wf
  rw [hb] at h2
  cases h2
  rw [hu] at hm
  cases hm
  exact ⟨h1, hb, h3⟩

/-- A node of such payloads, and so on down the links, which have no names. -/
inductive Tidy : Node → Prop
  | proto {d ls b} : Pay d ls.length → (∀ l ∈ ls, l.name = []) → (∀ l ∈ ls, Tidy l.target) → Tidy (.proto d ls b)
  | raw {d b} : d.length ≤ blockSizeLimit → Tidy (.raw d b)
  | other : Tidy (.other [])

theorem Tidy.reach {n x : Node} (hx : Reach n x) (h : Tidy n) : Tidy x := by
  induction hx with
  | refl => exact h
  | step hl _ ih =>
    cases h with
    | proto _ _ h => exact ih (h _ hl)
    | raw => simp [Node.links] at hl
    | other => simp [Node.links] at hl

/-- The length of a payload. -/
theorem Pay.len {d : Bytes} {k : Nat} (h : Pay d k) : d.length ≤ blockSizeLimit + 24 + 11 * k := by
  obtain ⟨m, h1, h2, rfl⟩ := h
  obtain ⟨typ, data, fs, bs, ht, fo, u⟩ := m
  obtain ⟨h3, h4, h5, h6, h7⟩ := h1
  dsimp only at *
  subst h5 h6 h7
  have hb := Pb.encBlocksizes_length bs
  have hd : (Pb.encOpt (Pb.encBytesField 2) data).length ≤ 11 + blockSizeLimit := by
    cases data with
    | none => simp [Pb.encOpt]
    | some x =>
      have := h4 x rfl
      have := Pb.encVarint_length_le x.length
      simp only [Pb.encOpt, Pb.encBytesField_length _ (show 2 < 15 by omega)]
      omega
  have hf : (Pb.encOpt (fun v => Pb.encVarintField 3 (UInt64.toNat v)) fs).length ≤ 11 := by
    cases fs with
    | none => simp [Pb.encOpt]
    | some x =>
      have := Pb.encVarint_length_le x.toNat
      simp only [Pb.encOpt, Pb.encVarintField_length (show 3 < 16 by omega)]
      omega
  have ht : ∀ t : UInt32, (t = TFile ∨ t = TRaw) → (Pb.encVarint (Pb.signExt t)).length = 1 := by
    rintro t (rfl | rfl) <;> decide
  have key : ∀ t : UInt32, (t = TFile ∨ t = TRaw) → typ = some t → d.length ≤ blockSizeLimit + 24 + 11 * bs.length := by
    intro t h0 hty
    subst hty
    unfold Pb.Data.marshal at h2
    simp only at h2
    cases h2
    simp only [List.length_append, Pb.encVarintField_length (show 1 < 16 by omega), ht t h0, Pb.encOpt, List.length_nil] at hd hf ⊢
    omega
  rcases h3 with h3 | h3
  · exact key _ (.inl rfl) h3
  · exact key _ (.inr rfl) h3

/-- A link without a name. -/
theorem link_len {cid : Node → Bytes} {w : Nat} (hw : w < 100) (hcid : ∀ x, (cid x).length ≤ w) (l : Link) (hl : l.name = []) : (Pb.encBytesField 2 (encLink cid l)).length ≤ w + 17 := by
  have h1 := hcid l.target
  have h2 := Pb.encVarint_length_le l.tsize.toNat
  have h3 : (encLink cid l).length ≤ w + 15 := by
    unfold encLink
    simp only [hl, List.length_append, Pb.encBytesField_length _ (show 1 < 15 by omega),
      Pb.encBytesField_length _ (show 2 < 15 by omega), Pb.encVarintField_length (show 3 < 16 by omega), List.length_nil]
    rw [Pb.encVarint_one (show (cid l.target).length < 128 by omega), Pb.encVarint_one (show 0 < 128 by omega)]
    omega
  rw [Pb.encBytesField_length _ (by omega), Pb.encVarint_one (show (encLink cid l).length < 128 by omega)]
  omega

theorem Tidy.len {cid : Node → Bytes} {w : Nat} (hw : w < 100) (hcid : ∀ x, (cid x).length ≤ w) {n : Node} (h : Tidy n) :
    (encBlock cid n).length ≤ blockSizeLimit + 35 + n.links.length * (w + 28) := by
  cases h with
  | raw h => simp only [encBlock]; omega
  | other => simp [encBlock]
  | @proto d ls b h1 h2 h3 =>
    simp only [encBlock, List.length_append, Node.links]
    have hl : ((List.map (fun l => Pb.encBytesField 2 (encLink cid l)) ls).flatten).length ≤ ls.length * (w + 17) := by
      clear h1 h3
      induction ls with
      | nil => simp
      | cons l ls ih =>
        have := link_len hw hcid l (h2 l (by simp))
        have := ih (fun l hl => h2 l (by simp [hl]))
        simp only [List.map_cons, List.flatten_cons, List.length_append, List.length_cons, Nat.succ_mul]
        omega
    have hd : (if d = [] then ([] : Bytes) else Pb.encBytesField 1 d).length ≤ blockSizeLimit + 35 + 11 * ls.length := by
      split
      · simp
      · rw [Pb.encBytesField_length _ (by omega)]
        have := Pb.encVarint_length_le d.length
        have := h1.len
        omega
    have : ls.length * (w + 28) = ls.length * (w + 17) + 11 * ls.length := by ring
    omega

/-- A node under construction. -/
structure NTidy (n : FSN) : Prop where
  trim : Trim n.file.format
  num : n.file.format.blocksizes.length = n.links.length
  names : ∀ l ∈ n.links, l.name = []
  links : ∀ l ∈ n.links, Tidy l.target

theorem NTidy.node {n : FSN} (h : NTidy n) {b : Bytes} (hb : n.file.getBytes = .ok b) : Tidy (.proto b n.links n.builder) :=
  .proto ⟨_, h.trim, hb, h.num⟩ h.names h.links

theorem trim_new {t : UInt32} (h : t = TFile ∨ t = TRaw) : Trim (FSNode.new t).format :=
  ⟨by rcases h with rfl | rfl <;> simp [FSNode.new, FSNode.updateFilesize], by simp [FSNode.new, FSNode.updateFilesize], rfl, rfl, rfl⟩

theorem leaf_tidy {db : DB} {t : UInt32} (ht : t = TFile ∨ t = TRaw) {d : Option Bytes} {n : Node} (h : db.newLeafNode d t = .ok n) : Tidy n := by
  unfold DB.newLeafNode at h
  split at h
  · cases h
  next hl =>
  split at h
  · cases h
    unfold DB.rawNode
    split <;> exact .raw (by omega)
  split at h
  · cases h
  · next hc =>
    cases h
    unfold FSN.commit at hc
    split at hc <;> cases hc
    next hb =>
    refine NTidy.node (n := (FSN.new db t).setFileData d) ⟨?_, rfl, by simp [FSN.new, FSN.setFileData], by simp [FSN.new, FSN.setFileData]⟩ hb
    refine ⟨(trim_new ht).typ, ?_, rfl, rfl, rfl⟩
    intro x hx
    have : d = some x := hx
    subst this
    simpa using hl

theorem tidy_closed : Closed Tidy NTidy where
  new := fun db => ⟨trim_new (.inl rfl), rfl, by simp [FSN.new], by simp [FSN.new]⟩
  child := by
    intro n n' b sz db db' h hn hb
    unfold FSN.addChild at h
    simp only at h
    split at h
    · cases h
    · cases h
      refine ⟨⟨hn.trim.typ, hn.trim.data, hn.trim.hashType, hn.trim.fanout, hn.trim.unrec⟩, ?_, ?_, ?_⟩
      · have := hn.num
        simp [FSNode.addBlockSize, FSNode.updateFilesize] at this ⊢
        omega
      · intro l hl
        simp only [List.mem_append, List.mem_singleton] at hl
        rcases hl with hl | rfl
        · exact hn.names l hl
        · rfl
      · intro l hl
        simp only [List.mem_append, List.mem_singleton] at hl
        rcases hl with hl | rfl
        · exact hn.links l hl
        · exact hb
  commit := by
    intro n n' k h hn
    unfold FSN.commit at h
    split at h <;> cases h
    next hb => exact ⟨hn.node hb, hn.trim, hn.num, hn.names, hn.links⟩
  leaf := fun h => leaf_tidy (.inr rfl) h
  load := by
    intro d ls b n h ht
    unfold FSN.fromDag at h
    split at h <;> cases h
    next hf =>
    unfold FSNode.fromBytes at hf
    split at hf <;> cases hf
    next hm =>
    cases ht with
    | proto h1 h2 h3 =>
      have := h1.msg hm
      exact ⟨this.1, this.2.2, h2, h3⟩
  links := fun h => h.links
  remove := by
    intro n f i h hn
    unfold FSN.removeChild at h
    split at h
    · cases h
    next hf =>
    split at h
    · next hi =>
      cases h
      unfold FSNode.removeBlockSize at hf
      have hmem : ∀ l ∈ n.links.take i ++ n.links.drop (i + 1), l ∈ n.links := by
        intro l hl
        simp only [List.mem_append] at hl
        exact hl.elim List.mem_of_mem_take List.mem_of_mem_drop
      split at hf
      · cases hf
      · cases hf
        refine ⟨⟨hn.trim.typ, hn.trim.data, hn.trim.hashType, hn.trim.fanout, hn.trim.unrec⟩, ?_, fun l hl => hn.names l (hmem l hl), fun l hl => hn.links l (hmem l hl)⟩
        have := hn.num
        simp only [FSNode.updateFilesize, List.length_append, List.length_take, List.length_drop, this]
    · cases h

mutual
/-- The trees that the importers build. -/
theorem T.tidy (c : Cfg) (hc : c.OK) : ∀ (t : T), (∀ d ∈ t.chunks, d.length ≤ blockSizeLimit) → Tidy (t.toNode c)
  | .leaf d, h => by
    have hd := h d (by simp [T.chunks])
    simp only [T.toNode]
    unfold Cfg.leafNode
    split
    · split <;> exact .raw hd
    · refine .proto ⟨((FSNode.new c.leafType).setData (some d)).format, ?_, FSNode.getBytes_of_typ _ rfl, rfl⟩ (by simp) (by simp)
      refine ⟨(trim_new hc).typ, ?_, rfl, rfl, rfl⟩
      intro x hx
      have : some d = some x := hx
      cases this
      exact hd
  | .node ts, h => by
    simp only [T.toNode]
    have hk : (addSizes (FSNode.new TFile) (ts.map T.size)).format.blocksizes = ts.map T.size := by
      rw [addSizes_format]; simp [FSNode.new, FSNode.updateFilesize]
    refine .proto ⟨(addSizes (FSNode.new TFile) (ts.map T.size)).format, ?_, FSNode.getBytes_of_typ _ (by rw [addSizes_typ]; rfl), by rw [hk, List.length_map, T.toLinks_length]⟩ ?_ (T.tidyL c hc ts h)
    · rw [addSizes_format]
      have := trim_new (t := TFile) (.inl rfl)
      exact ⟨this.typ, this.data, rfl, rfl, rfl⟩
    · intro l hl
      rw [T.toLinks_eq_map, List.mem_map] at hl
      obtain ⟨t, _, rfl⟩ := hl
      rfl
theorem T.tidyL (c : Cfg) (hc : c.OK) : ∀ (ts : List T), (∀ d ∈ T.chunksL ts, d.length ≤ blockSizeLimit) → ∀ l ∈ T.toLinks c ts, Tidy l.target
  | [], _, l, hl => by simp [T.toLinks] at hl
  | t :: ts, h, l, hl => by
    simp only [T.toLinks, List.mem_cons] at hl
    rcases hl with rfl | hl
    · exact T.tidy c hc t (fun d hd => h d (by simp [T.chunksL, hd]))
    · exact T.tidyL c hc ts (fun d hd => h d (by simp [T.chunksL, hd])) l hl
end

end Unixfs.Import

namespace Unixfs.Mod
open Unixfs.Spec Unixfs.Import Unixfs.Import.Trickle

variable {env : Env}

mutual
theorem modifyDag_tidy : ∀ (n : Node) (off : UInt64) (buf : Bytes) (svc : Svc) (r : Except Err Node) (x : Node) (rest : Bytes) (svc' : Svc),
    modifyDag env n off buf svc = (r, x, rest, svc') → Tidy n → Tidy x ∧ ∀ k, r = .ok k → Tidy k
  | .proto d [] b, off, buf, svc, r, x, rest, svc', h, hn => by
    unfold modifyDag at h
    split at h
    · cases h; exact ⟨hn, by simp⟩
    next fs hfs =>
    split at h
    · cases h; exact ⟨hn, by simp⟩
    next hoff =>
    simp only at h
    split at h
    · cases h; exact ⟨hn, by simp⟩
    next bytes hb =>
    have key : Tidy (.proto bytes [] b) := by
      cases hn with
      | proto h1 h2 h3 =>
        unfold FSNode.fromBytes at hfs
        split at hfs <;> cases hfs
        next m0 hm0 =>
        obtain ⟨t1, _, t3⟩ := h1.msg hm0
        refine .proto ⟨_, ?_, hb, t3⟩ h2 h3
        refine ⟨t1.typ, ?_, t1.hashType, t1.fanout, t1.unrec⟩
        intro x hx
        simp only [Option.map_eq_some_iff] at hx
        obtain ⟨y, hy, rfl⟩ := hx
        have := t1.data y hy
        have hd : (FSNode.mk m0).data = y := by unfold FSNode.data Pb.Data.getData; simp only [hy, Option.getD_some]
        rw [hd] at hoff ⊢
        simp only [writeInto, List.length_append, List.length_take, List.length_drop]
        omega
    split at h
    · cases h; exact ⟨hn, by simp⟩
    · cases h; exact ⟨hn, by intro k hk; cases hk; exact key⟩
  | .raw d b, off, buf, svc, r, x, rest, svc', h, hn => by
    unfold modifyDag at h
    split at h
    · cases h; exact ⟨hn, by simp⟩
    simp only at h
    split at h
    · cases h; exact ⟨hn, by simp⟩
    · cases h
      refine ⟨hn, ?_⟩
      intro k hk
      cases hk
      cases hn with
      | raw hn =>
        refine .raw ?_
        simp only [writeInto, List.length_append, List.length_take, List.length_drop]
        omega
  | .other d, off, buf, svc, r, x, rest, svc', h, hn => by
    unfold modifyDag at h
    cases h; exact ⟨hn, by simp⟩
  | .proto d (l :: ls) b, off, buf, svc, r, x, rest, svc', h, hn => by
    unfold modifyDag at h
    split at h
    · cases h; exact ⟨hn, by simp⟩
    have key : ∀ ls', (ls'.length = (l :: ls).length ∧ (∀ x ∈ ls', x.name = []) ∧ ∀ x ∈ ls', Tidy x.target) → Tidy (.proto d ls' b) := by
      rintro ls' ⟨g1, g2, g3⟩
      cases hn with
      | proto h1 h2 h3 => exact .proto (by rw [g1]; exact h1) g2 g3
    have hl : (∀ x ∈ l :: ls, x.name = []) ∧ ∀ x ∈ l :: ls, Tidy x.target := by cases hn with | proto h1 h2 h3 => exact ⟨h2, h3⟩
    split at h
    · next hm =>
      cases h
      exact ⟨key _ (modifyLinks_tidy _ _ _ _ _ _ _ _ _ _ hm hl.1 hl.2), by simp⟩
    · next hm =>
      have s1 := key _ (modifyLinks_tidy _ _ _ _ _ _ _ _ _ _ hm hl.1 hl.2)
      split at h
      · cases h; exact ⟨s1, by simp⟩
      · cases h; exact ⟨s1, by intro k he; cases he; exact s1⟩
theorem modifyLinks_tidy : ∀ (bss : List UInt64) (ls : List Link) (cur off : UInt64) (buf : Bytes) (svc : Svc) (r : Option Err) (ls' : List Link)
    (rest : Bytes) (svc' : Svc), modifyLinks env bss ls cur off buf svc = (r, ls', rest, svc') → (∀ l ∈ ls, l.name = []) → (∀ l ∈ ls, Tidy l.target) →
    ls'.length = ls.length ∧ (∀ l ∈ ls', l.name = []) ∧ ∀ l ∈ ls', Tidy l.target
  | [], ls, cur, off, buf, svc, r, ls', rest, svc', h, hn, hl => by unfold modifyLinks at h; cases h; exact ⟨rfl, hn, hl⟩
  | bs :: bss, [], cur, off, buf, svc, r, ls', rest, svc', h, hn, hl => by unfold modifyLinks at h; cases h; exact ⟨rfl, hn, hl⟩
  | bs :: bss, .mk nm sz child :: ls, cur, off, buf, svc, r, ls', rest, svc', h, hn, hl => by
    have hc : Tidy child := hl (.mk nm sz child) (by simp)
    have hnm : nm = [] := hn (.mk nm sz child) (by simp)
    have ht : ∀ l ∈ ls, Tidy l.target := fun l h => hl l (by simp [h])
    have htn : ∀ l ∈ ls, l.name = [] := fun l h => hn l (by simp [h])
    unfold modifyLinks at h
    split at h
    · split at h
      · cases h; exact ⟨rfl, hn, hl⟩
      · split at h
        · cases h; exact ⟨rfl, hn, hl⟩
        · next hm =>
          have s2 := modifyDag_tidy child _ _ _ _ _ _ _ hm hc
          split at h
          · cases h
            exact ⟨rfl, List.forall_mem_cons.mpr ⟨hnm, htn⟩, List.forall_mem_cons.mpr ⟨s2.2 _ rfl, ht⟩⟩
          · split at h
            next hr =>
            cases h
            obtain ⟨s3, s4, s5⟩ := modifyLinks_tidy bss ls _ _ _ _ _ _ _ _ hr htn ht
            exact ⟨by simp [s3], List.forall_mem_cons.mpr ⟨hnm, s4⟩, List.forall_mem_cons.mpr ⟨s2.2 _ rfl, s5⟩⟩
    · split at h
      next hr =>
      cases h
      obtain ⟨s3, s4, s5⟩ := modifyLinks_tidy bss ls _ _ _ _ _ _ _ _ hr htn ht
      exact ⟨by simp [s3], List.forall_mem_cons.mpr ⟨hnm, s4⟩, List.forall_mem_cons.mpr ⟨hc, s5⟩⟩
end

mutual
theorem dagTruncate_tidy : ∀ (n : Node) (size : UInt64) (svc : Svc) (k : Node) (svc' : Svc), dagTruncate env n size svc = (.ok k, svc') → Tidy n → Tidy k
  | .proto d [] b, size, svc, k, svc', h, hn => by
    unfold dagTruncate at h
    split at h
    · cases h
    next fs hfs =>
    split at h
    · cases h
    · cases h
      cases hn with
      | proto h1 h2 h3 =>
        unfold FSNode.fromBytes at hfs
        split at hfs <;> cases hfs
        next m0 hm0 _ =>
        obtain ⟨t1, _, t3⟩ := h1.msg hm0
        refine .proto ⟨{ typ := some TRaw, data := m0.data.map (fun x => x.take size.toNat), filesize := some (UInt64.ofNat ((m0.data.map (fun x => x.take size.toNat)).getD []).length) }, ?_, rfl, rfl⟩ h2 h3
        refine ⟨.inr rfl, ?_, rfl, rfl, rfl⟩
        intro x hx
        simp only [Option.map_eq_some_iff] at hx
        obtain ⟨y, hy, rfl⟩ := hx
        have := t1.data y hy
        simp only [List.length_take]
        omega
  | .raw d b, size, svc, k, svc', h, hn => by
    unfold dagTruncate at h
    split at h
    · cases h
    · cases h
      cases hn with
      | raw hn => exact .raw (by simp only [List.length_take]; omega)
  | .other d, size, svc, k, svc', h, hn => by
    unfold dagTruncate at h
    cases h
  | .proto d (l :: ls) b, size, svc, k, svc', h, hn => by
    unfold dagTruncate at h
    split at h
    · cases h
    next fs hfs =>
    split at h
    · cases h
    · next hm =>
      cases hn with
      | proto h1 h2 h3 =>
      unfold FSNode.fromBytes at hfs
      split at hfs <;> cases hfs
      next m0 hm0 =>
      obtain ⟨t1, _, t3⟩ := h1.msg hm0
      obtain ⟨g1, g2, g3, g4, g5⟩ := truncLinks_tidy _ _ _ _ _ _ _ _ _ _ hm h2 h3 (by simp) (by simp) ⟨t1.typ, t1.data, t1.hashType, t1.fanout, t1.unrec⟩ rfl
      split at h
      · cases h
      split at h
      · cases h
      · next bytes hb =>
        cases h
        refine .proto ⟨_, g4, hb, by simpa using g5⟩ ?_ ?_
        · intro x hx
          simp only [List.mem_append, List.mem_singleton] at hx
          rcases hx with hx | rfl
          · exact g1 x hx
          · rfl
        · intro x hx
          simp only [List.mem_append, List.mem_singleton] at hx
          rcases hx with hx | rfl
          · exact g2 x hx
          · exact g3
theorem truncLinks_tidy : ∀ (ls : List Link) (cur size : UInt64) (fs : FSNode) (kept : List Link) (svc : Svc) (fs' : FSNode) (kept' : List Link) (md : Node) (svc' : Svc),
    truncLinks env ls cur size fs kept svc = (.ok (fs', kept', md), svc') → (∀ l ∈ ls, l.name = []) → (∀ l ∈ ls, Tidy l.target) →
    (∀ l ∈ kept, l.name = []) → (∀ l ∈ kept, Tidy l.target) → Trim fs.format → fs.format.blocksizes.length = kept.length →
    (∀ l ∈ kept', l.name = []) ∧ (∀ l ∈ kept', Tidy l.target) ∧ Tidy md ∧ Trim fs'.format ∧ fs'.format.blocksizes.length = kept'.length + 1
  | [], cur, size, fs, kept, svc, fs', kept', md, svc', h, _, _, _, _, _, _ => by unfold truncLinks at h; cases h
  | .mk nm sz child :: ls, cur, size, fs, kept, svc, fs', kept', md, svc', h, hn, hl, hkn, hk, hf, hb => by
    have hc : Tidy child := hl (.mk nm sz child) (by simp)
    have hnm : nm = [] := hn (.mk nm sz child) (by simp)
    have ht : ∀ l ∈ ls, Tidy l.target := fun l h => hl l (by simp [h])
    have htn : ∀ l ∈ ls, l.name = [] := fun l h => hn l (by simp [h])
    have hadd : ∀ s, Trim (fs.addBlockSize s).format ∧ (fs.addBlockSize s).format.blocksizes.length = kept.length + 1 := fun s =>
      ⟨⟨hf.typ, hf.data, hf.hashType, hf.fanout, hf.unrec⟩, by simp [FSNode.addBlockSize, FSNode.updateFilesize, hb]⟩
    unfold truncLinks at h
    split at h
    · cases h
    split at h
    · cases h
    split at h
    · split at h
      · cases h
      · next hm =>
        cases h
        exact ⟨hkn, hk, dagTruncate_tidy child _ _ _ _ hm hc, (hadd _).1, (hadd _).2⟩
    · refine truncLinks_tidy ls _ _ _ _ _ _ _ _ _ h htn ht ?_ ?_ (hadd _).1 (by rw [(hadd _).2]; simp)
      · intro x hx
        simp only [List.mem_append, List.mem_singleton] at hx
        rcases hx with hx | rfl
        · exact hkn x hx
        · exact hnm
      · intro x hx
        simp only [List.mem_append, List.mem_singleton] at hx
        rcases hx with hx | rfl
        · exact hk x hx
        · exact hc
end

theorem tidy_stable (hd : AppendsStored env) : Stable env Tidy where
  modify := fun h hn => modifyDag_tidy _ _ _ _ _ _ _ _ h hn
  trunc := fun h hn => dagTruncate_tidy _ _ _ _ _ h hn
  append := by
    intro dm chunks fin k svc' h hn
    unfold DM.appendData at h
    split at h
    · cases h
    split at h
    · cases h
    · split at h
      · cases h
      · next hA =>
        cases h
        exact append_closed tidy_closed hA hn
  left := fun h hn => by rw [left_zeros hd h]; exact hn
  other := .other

end Unixfs.Mod
