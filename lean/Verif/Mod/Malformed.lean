import Verif.Mod.Panic
import Verif.Import.Calm

/-!
# Editing an arbitrary, possibly malformed, file (C88)

The definitions in this file belong to proofs; they model no code.
-/

namespace Unixfs.Mod
open Unixfs Unixfs.Import Unixfs.Spec

variable {env : Env}

theorem backed_child {d : Bytes} {ls : List Link} {b : Builder} (h : Backed (.proto d ls b)) : ∀ l ∈ ls, Backed l.target :=
  fun _ hl x hx => h x (.step (n := .proto d ls b) hl hx)

theorem backed_covered {n : Node} (h : Backed n) : Covered n := fun d ls b hr p hp => (h _ hr p hp).1

theorem svc_add_calm (n : Node) (s : Svc) : (s.add env n).1 ≠ .error .panic := by
  unfold Svc.add
  split <;> exact fun h => by cases h

theorem svc_get_calm (n : Node) (s : Svc) : (s.get env n).1 ≠ .error .panic := by
  unfold Svc.get
  dsimp only
  split <;> exact fun h => by cases h

theorem fileSize_calm (n : Node) : fileSize n ≠ .error .panic := by
  intro h
  unfold fileSize at h
  split at h
  · split at h
    next e he => cases h; exact (File.fromBytes_sane he).1 rfl
    · cases h
  · cases h
  · cases h

theorem getType_iff {p : Pb.Data} {d : Bytes} (h : Pb.Data.unmarshal d = .ok p) (t : UInt32) : p.getType = t ↔ p.typ = some t := by
  obtain ⟨u, hu⟩ := Reader.unmarshal_typ h
  simp [Pb.Data.getType, hu]

/-- What `fileSize` reports is the recorded size. -/
theorem fileSize_recorded {n : Node} {s : UInt64} (h : fileSize n = .ok s) : s.toNat = recorded n % 2 ^ 64 := by
  unfold fileSize at h
  cases n with
  | raw d b => cases h; simp [recorded]
  | other d => cases h
  | proto d ls b =>
    dsimp only at h
    unfold FSNode.fromBytes at h
    simp only [recorded]
    cases e : Pb.Data.unmarshal d with
    | error e' => rw [e] at h; cases h
    | ok p =>
      rw [e] at h
      cases h
      have hw := (Pb.Data.unmarshal_wf e).data
      obtain ⟨t, ht⟩ := Reader.unmarshal_typ e
      have hg : p.getType = t := (getType_iff e t).mpr ht
      simp only [FSNode.fileSize, pbSize, hg, Pb.Data.getFilesize, Pb.Data.getData, ht, Option.some.injEq]
      by_cases h1 : t = TFile ∨ t = TRaw
      · have h2 : ¬(t = TDirectory ∨ t = THAMTShard) := by rcases h1 with rfl | rfl <;> decide
        simp only [h1, h2, if_true, if_false]
        exact (Nat.mod_eq_of_lt (UInt64.toNat_lt _)).symm
      · by_cases h3 : t = TSymlink
        · subst h3
          simp [TSymlink, TDirectory, THAMTShard, TFile, TRaw]
        · simp only [h1, h3, if_false]
          by_cases h4 : t = TDirectory ∨ t = THAMTShard <;> simp [h4]

theorem hit {cur bs off : UInt64} (h1 : cur ≤ off) (h2 : cur + bs > off) : (off - cur).toNat < bs.toNat := by
  have a := UInt64.toNat_lt bs
  have b := UInt64.toNat_lt off
  have e : (off - cur).toNat = off.toNat - cur.toNat := UInt64.toNat_sub_of_le _ _ h1
  rw [e]
  simp only [UInt64.le_iff_toNat_le, gt_iff_lt, UInt64.lt_iff_toNat_lt, UInt64.toNat_add] at h1 h2
  by_cases hw : cur.toNat + bs.toNat < 2 ^ 64
  · rw [Nat.mod_eq_of_lt hw] at h2; omega
  · rw [Nat.mod_eq_sub_mod (by omega), Nat.mod_eq_of_lt (by omega)] at h2; omega

/-! ### Overwriting -/

/-- Every block size has a link, whose target records at least as much. -/
def SizesFit (bss : List UInt64) (ls : List Link) : Prop :=
  bss.length ≤ ls.length ∧ ∀ (i : Nat) s l, bss[i]? = some s → ls[i]? = some l → s.toNat ≤ recorded l.target

theorem SizesFit.tail {s : UInt64} {bss : List UInt64} {l : Link} {ls : List Link} (h : SizesFit (s :: bss) (l :: ls)) :
    s.toNat ≤ recorded l.target ∧ SizesFit bss ls :=
  ⟨h.2 0 s l rfl rfl, by have := h.1; simp only [List.length_cons] at this; omega, fun i s' l' h1 h2 => h.2 (i + 1) s' l' h1 h2⟩

mutual
theorem modifyDag_calm : ∀ (n : Node) (off : UInt64) (buf : Bytes) (svc : Svc), Backed n → (n.links = [] → off.toNat ≤ recorded n) →
    (modifyDag env n off buf svc).1 ≠ .error .panic
  | .other _, _, _, _, _, _ => by unfold modifyDag; exact fun h => by cases h
  | .raw d b, off, buf, svc, _, ho => by
    have ho : off.toNat ≤ d.length := ho rfl
    unfold modifyDag
    rw [if_neg (by omega)]
    dsimp only
    have := svc_add_calm (env := env) (.raw (writeInto d off.toNat buf).1 (b.withCodec Builder.rawCodec)) svc
    generalize svc.add env (.raw (writeInto d off.toNat buf).1 (b.withCodec Builder.rawCodec)) = r at this ⊢
    obtain ⟨r, svc'⟩ := r
    cases r with
    | error e => exact fun h => this (by cases h; rfl)
    | ok u => exact fun h => by cases h
  | .proto d [] b, off, buf, svc, hb, ho => by
    have ho := ho rfl
    unfold modifyDag
    cases e : FSNode.fromBytes d with
    | error e' => exact fun h => (File.fromBytes_sane e).1 (by cases h; rfl)
    | ok fs =>
      have hu : Pb.Data.unmarshal d = .ok fs.format := by
        unfold FSNode.fromBytes at e
        cases e2 : Pb.Data.unmarshal d with
        | error e' => rw [e2] at e; cases e
        | ok p => rw [e2] at e; cases e; rfl
      have hk := (hb _ (.refl _) fs.format hu).2.2.1 rfl
      have hl : ¬ fs.data.length < off.toNat := by
        have : fs.data.length = (fs.format.data.getD []).length := rfl
        omega
      dsimp only
      rw [if_neg hl]
      generalize ({ fs with format := { fs.format with data := fs.format.data.map (fun _ => (writeInto fs.data off.toNat buf).1) } } : FSNode) = fs'
      cases e2 : fs'.getBytes with
      | error e' => exact fun h => marshal_ne_panic fs'.format (by cases h; exact e2)
      | ok bytes =>
        dsimp only
        have := svc_add_calm (env := env) (.proto bytes [] b) svc
        generalize svc.add env (.proto bytes [] b) = r at this ⊢
        obtain ⟨r, svc'⟩ := r
        cases r with
        | error e => exact fun h => this (by cases h; rfl)
        | ok u => exact fun h => by cases h
  | .proto d (l :: ls) b, off, buf, svc, hb, _ => by
    unfold modifyDag
    cases e : FSNode.fromBytes d with
    | error e' => exact fun h => (File.fromBytes_sane e).1 (by cases h; rfl)
    | ok fs =>
      have hu : Pb.Data.unmarshal d = .ok fs.format := by
        unfold FSNode.fromBytes at e
        cases e2 : Pb.Data.unmarshal d with
        | error e' => rw [e2] at e; cases e
        | ok p => rw [e2] at e; cases e; rfl
      have hk := hb _ (.refl _) fs.format hu
      dsimp only
      have := modifyLinks_calm (l :: ls) fs.blockSizes 0 off buf svc ⟨hk.1, hk.2.1⟩ (backed_child hb) (UInt64.zero_le)
      generalize modifyLinks env fs.blockSizes (l :: ls) 0 off buf svc = r at this ⊢
      obtain ⟨r, ls', buf', svc'⟩ := r
      cases r with
      | some e => exact fun h => this (by cases h; rfl)
      | none =>
        dsimp only
        have := svc_add_calm (env := env) (.proto d ls' b) svc'
        generalize svc'.add env (.proto d ls' b) = r at this ⊢
        obtain ⟨r, svc'⟩ := r
        cases r with
        | error e => exact fun h => this (by cases h; rfl)
        | ok u => exact fun h => by cases h
theorem modifyLinks_calm : ∀ (ls : List Link) (bss : List UInt64) (cur off : UInt64) (buf : Bytes) (svc : Svc), SizesFit bss ls →
    (∀ l ∈ ls, Backed l.target) → cur ≤ off → (modifyLinks env bss ls cur off buf svc).1 ≠ some .panic
  | ls, [], _, _, _, _, _, _, _ => by unfold modifyLinks; exact fun h => by cases h
  | [], _ :: _, _, _, _, _, hf, _, _ => by have := hf.1; simp at this
  | .mk nm sz child :: ls, bs :: bss, cur, off, buf, svc, hf, hb, hc => by
    obtain ⟨hbs, hf⟩ := hf.tail
    have hchild : Backed child := hb _ (List.mem_cons_self ..)
    have hrest : ∀ l ∈ ls, Backed l.target := fun l hl => hb l (List.mem_cons_of_mem _ hl)
    unfold modifyLinks
    split
    next hh =>
      have hg := svc_get_calm (env := env) child svc
      generalize svc.get env child = r at hg ⊢
      obtain ⟨r, svc1⟩ := r
      cases r with
      | error e => exact fun h => hg (by cases h; rfl)
      | ok u =>
        dsimp only
        have := modifyDag_calm child (off - cur) buf svc1 hchild (fun _ => Nat.le_of_lt (Nat.lt_of_lt_of_le (hit hc hh) hbs))
        generalize modifyDag env child (off - cur) buf svc1 = r at this ⊢
        obtain ⟨r, n', buf', svc2⟩ := r
        cases r with
        | error e => exact fun h => this (by cases h; rfl)
        | ok k =>
          dsimp only
          split
          · exact fun h => by cases h
          · have := modifyLinks_calm ls bss (cur + bs) (cur + bs) buf' svc2 hf hrest (UInt64.le_refl _)
            generalize modifyLinks env bss ls (cur + bs) (cur + bs) buf' svc2 = r at this ⊢
            obtain ⟨r, x⟩ := r
            exact this
    next hh =>
      have := modifyLinks_calm ls bss (cur + bs) off buf svc hf hrest (UInt64.not_lt.mp hh)
      generalize modifyLinks env bss ls (cur + bs) off buf svc = r at this ⊢
      obtain ⟨r, x⟩ := r
      exact this
end

/-! ### Truncating -/

theorem recordedSum_cons (l : Link) (ls : List Link) : recordedSum (l :: ls) = recorded l.target + recordedSum ls := rfl

mutual
theorem dagTruncate_calm : ∀ (n : Node) (size : UInt64) (svc : Svc), Backed n → (n.links = [] → size.toNat ≤ recorded n) →
    (n.links ≠ [] → size.toNat < recorded n) → (dagTruncate env n size svc).1 ≠ .error .panic
  | .other _, _, _, _, _, _ => by unfold dagTruncate; exact fun h => by cases h
  | .raw d b, size, svc, _, ho, _ => by
    have ho : size.toNat ≤ d.length := ho rfl
    unfold dagTruncate
    rw [if_neg (by omega)]
    exact fun h => by cases h
  | .proto d [] b, size, svc, hb, ho, _ => by
    have ho := ho rfl
    unfold dagTruncate
    cases e : FSNode.fromBytes d with
    | error e' => exact fun h => (File.fromBytes_sane e).1 (by cases h; rfl)
    | ok fs =>
      have hu : Pb.Data.unmarshal d = .ok fs.format := by
        unfold FSNode.fromBytes at e
        cases e2 : Pb.Data.unmarshal d with
        | error e' => rw [e2] at e; cases e
        | ok p => rw [e2] at e; cases e; rfl
      have hk := (hb _ (.refl _) fs.format hu).2.2.1 rfl
      have hl : ¬ fs.data.length < size.toNat := by
        have : fs.data.length = (fs.format.data.getD []).length := rfl
        omega
      dsimp only
      rw [if_neg hl]
      exact fun h => by cases h
  | .proto d (l :: ls) b, size, svc, hb, _, ho => by
    have ho := ho (by simp [Node.links])
    unfold dagTruncate
    cases e : FSNode.fromBytes d with
    | error e' => exact fun h => (File.fromBytes_sane e).1 (by cases h; rfl)
    | ok fs =>
      have hu : Pb.Data.unmarshal d = .ok fs.format := by
        unfold FSNode.fromBytes at e
        cases e2 : Pb.Data.unmarshal d with
        | error e' => rw [e2] at e; cases e
        | ok p => rw [e2] at e; cases e; rfl
      obtain ⟨-, -, -, hk, hsum⟩ := hb _ (.refl _) fs.format hu
      have hk := hk (by simp)
      dsimp only
      have := truncLinks_calm (l :: ls) 0 size fs.removeAllBlockSizes [] svc (backed_child hb) UInt64.zero_le
        (by simp only [UInt64.toNat_zero]; omega) (by simp only [UInt64.toNat_zero]; omega)
      generalize truncLinks env (l :: ls) 0 size fs.removeAllBlockSizes [] svc = r at this ⊢
      obtain ⟨r, svc'⟩ := r
      cases r with
      | error e => exact fun h => this (by cases h; rfl)
      | ok x =>
        obtain ⟨fs', kept, modified⟩ := x
        dsimp only
        have := svc_add_calm (env := env) modified svc'
        generalize svc'.add env modified = r at this ⊢
        obtain ⟨r, svc'⟩ := r
        cases r with
        | error e => exact fun h => this (by cases h; rfl)
        | ok u =>
          dsimp only
          cases e2 : fs'.getBytes with
          | error e' => exact fun h => marshal_ne_panic fs'.format (by cases h; exact e2)
          | ok bytes => exact fun h => by cases h
theorem truncLinks_calm : ∀ (ls : List Link) (cur size : UInt64) (fs : FSNode) (kept : List Link) (svc : Svc), (∀ l ∈ ls, Backed l.target) →
    cur ≤ size → size.toNat < cur.toNat + recordedSum ls → cur.toNat + recordedSum ls < 2 ^ 64 →
    (truncLinks env ls cur size fs kept svc).1 ≠ .error .panic
  | [], cur, size, _, _, _, _, hc, h1, _ => by
    simp only [UInt64.le_iff_toNat_le] at hc
    simp only [recordedSum, List.map_nil, List.sum_nil] at h1
    omega
  | .mk nm sz child :: ls, cur, size, fs, kept, svc, hb, hc, h1, h2 => by
    rw [recordedSum_cons] at h1 h2
    simp only [Link.target] at h1 h2
    have hchild : Backed child := hb _ (List.mem_cons_self ..)
    have hrest : ∀ l ∈ ls, Backed l.target := fun l hl => hb l (List.mem_cons_of_mem _ hl)
    unfold truncLinks
    have hg := svc_get_calm (env := env) child svc
    generalize svc.get env child = r at hg ⊢
    obtain ⟨r, svc1⟩ := r
    cases r with
    | error e => exact fun h => hg (by cases h; rfl)
    | ok u =>
      dsimp only
      cases e : fileSize child with
      | error e' => exact fun h => fileSize_calm child (by cases h; exact e)
      | ok cs =>
        have hcs := fileSize_recorded e
        rw [Nat.mod_eq_of_lt (by omega)] at hcs
        have hadd : (cur + cs).toNat = cur.toNat + cs.toNat := by
          rw [UInt64.toNat_add, Nat.mod_eq_of_lt (by omega)]
        dsimp only
        split
        next hh =>
          have hlt := hit hc hh
          have := dagTruncate_calm child (size - cur) svc1 hchild (fun _ => by omega) (fun _ => by omega)
          generalize dagTruncate env child (size - cur) svc1 = r at this ⊢
          obtain ⟨r, svc2⟩ := r
          cases r with
          | error e => exact fun h => this (by cases h; rfl)
          | ok k => exact fun h => by cases h
        next hh =>
          exact truncLinks_calm ls (cur + cs) size _ _ svc1 hrest (UInt64.not_lt.mp hh) (by omega) (by omega)
end

/-! ### After overwriting, a node still has a link for every block size -/

theorem covered_leaf {d : Bytes} {b : Builder} (h : ∀ p, Pb.Data.unmarshal d = .ok p → p.blocksizes = []) : Covered (.proto d [] b) := by
  intro d' ls' b' hr p hp
  cases hr with
  | refl => rw [h p hp]; simp
  | step hl _ => cases hl

theorem covered_raw {d : Bytes} {b : Builder} : Covered (.raw d b) := by
  intro d' ls' b' hr
  cases hr with
  | step hl _ => cases hl

theorem covered_proto {d : Bytes} {ls : List Link} {b : Builder} (h : ∀ p, Pb.Data.unmarshal d = .ok p → p.blocksizes.length ≤ ls.length)
    (hl : ∀ l ∈ ls, Covered l.target) : Covered (.proto d ls b) := by
  intro d' ls' b' hr p hp
  cases hr with
  | refl => exact h p hp
  | step hm hr => exact hl _ hm _ _ _ hr p hp

theorem covered_child {d : Bytes} {ls : List Link} {b : Builder} (h : Covered (.proto d ls b)) : ∀ l ∈ ls, Covered l.target :=
  fun _ hl _ _ _ hr => h _ _ _ (.step (n := .proto d ls b) hl hr)

mutual
theorem modifyDag_covered : ∀ (n : Node) (off : UInt64) (buf : Bytes) (svc : Svc) (k : Node), Covered n →
    (modifyDag env n off buf svc).1 = .ok k → Covered k
  | .other _, _, _, _, _, _, h => by unfold modifyDag at h; cases h
  | .raw d b, off, buf, svc, k, _, h => by
    unfold modifyDag at h
    split at h
    · cases h
    · dsimp only at h
      split at h
      · cases h
      · cases h; exact covered_raw
  | .proto d [] b, off, buf, svc, k, hb, h => by
    unfold modifyDag at h
    cases e : FSNode.fromBytes d with
    | error e' => rw [e] at h; cases h
    | ok fs =>
      have hu : Pb.Data.unmarshal d = .ok fs.format := by
        unfold FSNode.fromBytes at e
        cases e2 : Pb.Data.unmarshal d with
        | error e' => rw [e2] at e; cases e
        | ok p => rw [e2] at e; cases e; rfl
      have hw := Pb.Data.unmarshal_wf hu
      have h0 : fs.format.blocksizes = [] := by
        have := hb d [] b (.refl _) _ hu
        exact List.length_eq_zero_iff.mp (by simpa using this)
      rw [e] at h
      dsimp only at h
      split at h
      · cases h
      next hl =>
        have hwf : ({ fs.format with data := fs.format.data.map (fun _ => (writeInto fs.data off.toNat buf).1) } : Pb.Data).WF := by
          refine ⟨hw.typ, fun x hx => ?_, hw.unrec⟩
          dsimp only at hx
          cases ed : fs.format.data with
          | none => rw [ed] at hx; cases hx
          | some y =>
            rw [ed] at hx
            cases hx
            have hy := hw.data y ed
            have : fs.data = y := by simp [FSNode.data, Pb.Data.getData, ed]
            rw [writeInto_length (by omega), this]
            exact hy
        obtain ⟨bytes, hbytes, hun⟩ := Pb.Data.unmarshal_marshal _ hwf
        simp only [FSNode.getBytes, hbytes] at h
        split at h
        · cases h
        · cases h
          exact covered_leaf (fun p hp => by rw [hun] at hp; cases hp; exact h0)
  | .proto d (l :: ls) b, off, buf, svc, k, hb, h => by
    unfold modifyDag at h
    cases e : FSNode.fromBytes d with
    | error e' => rw [e] at h; cases h
    | ok fs =>
      rw [e] at h
      dsimp only at h
      have := modifyLinks_covered (l :: ls) fs.blockSizes 0 off buf svc (covered_child hb)
      generalize modifyLinks env fs.blockSizes (l :: ls) 0 off buf svc = r at this h
      obtain ⟨r, ls', buf', svc'⟩ := r
      cases r with
      | some e => cases h
      | none =>
        dsimp only at h
        split at h
        · cases h
        · cases h
          obtain ⟨h1, h2⟩ := this
          exact covered_proto (fun p hp => by rw [h1]; exact hb d (l :: ls) b (.refl _) p hp) h2
theorem modifyLinks_covered : ∀ (ls : List Link) (bss : List UInt64) (cur off : UInt64) (buf : Bytes) (svc : Svc),
    (∀ l ∈ ls, Covered l.target) → (modifyLinks env bss ls cur off buf svc).2.1.length = ls.length ∧
      ∀ l ∈ (modifyLinks env bss ls cur off buf svc).2.1, Covered l.target
  | ls, [], _, _, _, _, hb => by unfold modifyLinks; exact ⟨rfl, hb⟩
  | [], _ :: _, _, _, _, _, _ => by unfold modifyLinks; exact ⟨rfl, fun _ h => by cases h⟩
  | .mk nm sz child :: ls, bs :: bss, cur, off, buf, svc, hb => by
    have hchild : Covered child := hb _ (List.mem_cons_self ..)
    have hrest : ∀ l ∈ ls, Covered l.target := fun l hl => hb l (List.mem_cons_of_mem _ hl)
    unfold modifyLinks
    split
    next hh =>
      generalize svc.get env child = r
      obtain ⟨r, svc1⟩ := r
      cases r with
      | error e => exact ⟨rfl, hb⟩
      | ok u =>
        dsimp only
        have := modifyDag_covered child (off - cur) buf svc1
        generalize modifyDag env child (off - cur) buf svc1 = r at this ⊢
        obtain ⟨r, n', buf', svc2⟩ := r
        cases r with
        | error e => exact ⟨rfl, hb⟩
        | ok k =>
          have hk := this k hchild rfl
          dsimp only
          split
          · exact ⟨rfl, fun l hl => by rcases List.mem_cons.mp hl with rfl | hl; exacts [hk, hrest l hl]⟩
          · have := modifyLinks_covered ls bss (cur + bs) (cur + bs) buf' svc2 hrest
            generalize modifyLinks env bss ls (cur + bs) (cur + bs) buf' svc2 = r at this ⊢
            obtain ⟨r, ls', x⟩ := r
            exact ⟨by simpa using this.1, fun l hl => by rcases List.mem_cons.mp hl with rfl | hl; exacts [hk, this.2 l hl]⟩
    next hh =>
      have := modifyLinks_covered ls bss (cur + bs) off buf svc hrest
      generalize modifyLinks env bss ls (cur + bs) off buf svc = r at this ⊢
      obtain ⟨r, ls', x⟩ := r
      exact ⟨by simpa using this.1, fun l hl => by rcases List.mem_cons.mp hl with rfl | hl; exacts [hchild, this.2 l hl]⟩
end

/-! ### Calls -/

theorem appendData_calm {dm : DM} (hb : Covered dm.cur) (chunks : List Bytes) {fin : Option Err} (hf : fin ≠ some .panic) :
    (dm.appendData env chunks fin).1 ≠ .error .panic := by
  unfold DM.appendData
  split
  · exact fun h => by cases h
  next n hn =>
    simp only [Params.new, Bool.false_and, Bool.false_eq_true, if_false]
    split
    next e he =>
      intro h
      refine Trickle.append_calm (m := defaultLinksPerBlock) _ _ ?_ hb (db := _) (Eq.trans he (by cases h; rfl))
      exact ⟨rfl, hf, by simp⟩
    · exact fun h => by cases h

theorem expandSparse_calm {dm : DM} (hb : Covered dm.cur) (size : Int) : (dm.expandSparse env size).1 ≠ .error .panic := by
  unfold DM.expandSparse
  have := appendData_calm (env := env) hb (zeroChunks size.toNat) (fin := none) (by simp)
  generalize dm.appendData env (zeroChunks size.toNat) none = r at this ⊢
  obtain ⟨r, svc⟩ := r
  cases r with
  | error e => exact fun h => this (by cases h; rfl)
  | ok n =>
    dsimp only
    exact svc_add_calm n svc

/-- The end of a call after overwriting. -/
theorem syncModify_calm {dm : DM} (hsp : ∀ b, (env.split b).2 ≠ some .panic) (hb : Backed dm.cur) (ho : dm.ws.toNat ≤ recorded dm.cur) (buflen : Nat) :
    (dm.syncModify env buflen).1 ≠ .error .panic := by
  unfold DM.syncModify
  have h1 := modifyDag_calm (env := env) dm.cur dm.ws (dm.buf.getD []) dm.svc hb (fun _ => ho)
  have h2 := modifyDag_covered (env := env) dm.cur dm.ws (dm.buf.getD []) dm.svc
  generalize modifyDag env dm.cur dm.ws (dm.buf.getD []) dm.svc = r at h1 h2 ⊢
  obtain ⟨r, n, rest, svc⟩ := r
  cases r with
  | error e => exact fun h => h1 (by cases h; rfl)
  | ok k =>
    have hk := h2 k (backed_covered hb) rfl
    dsimp only
    have := svc_get_calm (env := env) k svc
    generalize svc.get env k = r at this ⊢
    obtain ⟨r, svc'⟩ := r
    cases r with
    | error e => exact fun h => this (by cases h; rfl)
    | ok u =>
      dsimp only
      unfold DM.syncTail
      dsimp only
      split
      · exact fun h => by cases h
      · have := appendData_calm (env := env) (dm := { dm with cur := k, buf := some rest, svc := svc' }) hk (env.split rest).1 (hsp rest)
        simp only [Option.getD_some]
        generalize DM.appendData env { dm with cur := k, buf := some rest, svc := svc' } (env.split rest).1 (env.split rest).2 = r at this ⊢
        obtain ⟨r, svc2⟩ := r
        cases r with
        | error e => exact fun h => this (by cases h; rfl)
        | ok n =>
          dsimp only
          have := svc_add_calm (env := env) n svc2
          generalize svc2.add env n = r at this ⊢
          obtain ⟨r, svc3⟩ := r
          cases r with
          | error e => exact fun h => this (by cases h; rfl)
          | ok u => exact fun h => by cases h

theorem sync_calm {dm : DM} (hsp : ∀ b, (env.split b).2 ≠ some .panic) (hb : Backed dm.cur) (ho : dm.buf ≠ none → dm.ws.toNat ≤ recorded dm.cur % 2 ^ 64) :
    (dm.sync env).1 ≠ .error .panic := by
  unfold DM.sync
  split
  · exact fun h => by cases h
  next buf hbuf =>
    have ho := ho (by rw [hbuf]; simp)
    dsimp only
    cases e : fileSize dm.cur with
    | error e' => exact fun h => fileSize_calm dm.cur (by cases h; exact e)
    | ok fs =>
      have hfs := fileSize_recorded e
      dsimp only
      rw [if_neg (by simp only [UInt64.lt_iff_toNat_lt]; omega)]
      exact syncModify_calm (dm := { dm with read := none }) hsp hb (Nat.le_trans ho (Nat.mod_le _ _)) buf.length

/-- After a successful `Sync` nothing is buffered. -/
theorem sync_buf (dm : DM) : (dm.sync env).1 = .ok () → (dm.sync env).2.buf = none := by
  have ht : ∀ (dm : DM) (k : Nat), (dm.syncTail env k).1 = .ok () → (dm.syncTail env k).2.buf = none := by
    intro dm k
    unfold DM.syncTail
    dsimp only
    split
    · exact fun _ => rfl
    · split
      · exact fun h => by cases h
      · split
        · exact fun h => by cases h
        · exact fun _ => rfl
  have hm : ∀ (dm : DM) (k : Nat), (dm.syncModify env k).1 = .ok () → (dm.syncModify env k).2.buf = none := by
    intro dm k
    unfold DM.syncModify
    split
    · exact fun h => by cases h
    · split
      · exact fun h => by cases h
      · exact ht _ _
  unfold DM.sync
  split
  next h => exact fun _ => h
  · dsimp only
    split
    · exact fun h => by cases h
    · split
      · split
        · exact fun h => by cases h
        · exact hm _ _
      · exact hm _ _

theorem num_calm {r : Except Err Int} (h : r ≠ .error .panic) : (MRes.num r).err ≠ some .panic := by
  cases r with
  | ok n => exact fun h => by cases h
  | error e => exact fun h' => h (by cases h'; rfl)

theorem unit_calm {r : Except Err Unit} (h : r ≠ .error .panic) : (MRes.unit r).err ≠ some .panic := by
  cases r with
  | ok n => exact fun h => by cases h
  | error e => exact fun h' => h (by cases h'; rfl)

/-- The first call is `Truncate`. -/
theorem truncate_calm {dm : DM} (hbuf : dm.buf = none) (hb : Backed dm.cur) {size : Int} (h0 : 0 ≤ size) (h1 : size < 2 ^ 63) :
    (dm.truncate env size).1 ≠ .error .panic := by
  have hsy : dm.sync env = (.ok (), dm) := by unfold DM.sync; rw [hbuf]
  unfold DM.truncate
  rw [hsy]
  dsimp only
  cases e : fileSize dm.cur with
  | error e' =>
    have hsz : dm.size = .error e' := by unfold DM.size; rw [e]
    rw [hsz]
    exact fun h => fileSize_calm dm.cur (by cases h; exact e)
  | ok fs =>
    have hsz : dm.size = .ok (s64 fs) := by unfold DM.size; rw [e, hbuf]
    rw [hsz]
    have hfs := fileSize_recorded e
    dsimp only
    split
    · exact fun h => by cases h
    · split
      · exact expandSparse_calm (backed_covered hb) _
      next h2 h3 =>
        have hlt : (u64 size).toNat < recorded dm.cur := by
          have a := UInt64.toNat_lt fs
          have hu : (u64 size).toNat = size.toNat := u64_toNat h0 h1
          have hs : s64 fs ≤ fs.toNat := by
            unfold s64 i64
            have := Int.bmod_le (x := (fs.toNat : Int)) (m := 2 ^ 64) (by decide)
            have h4 := Int.bmod_def (fs.toNat : Int) (2 ^ 64)
            split at h4 <;> omega
          have : recorded dm.cur % 2 ^ 64 ≤ recorded dm.cur := Nat.mod_le _ _
          rw [hu]
          omega
        have := dagTruncate_calm (env := env) dm.cur (u64 size) dm.svc hb (fun _ => Nat.le_of_lt hlt) (fun _ => hlt)
        generalize dagTruncate env dm.cur (u64 size) dm.svc = r at this ⊢
        obtain ⟨r, svc⟩ := r
        cases r with
        | error e => exact fun h => this (by cases h; rfl)
        | ok n =>
          dsimp only
          have := svc_add_calm (env := env) n svc
          generalize svc.add env n = r at this ⊢
          obtain ⟨r, svc3⟩ := r
          cases r with
          | error e => exact fun h => this (by cases h; rfl)
          | ok u => exact fun h => by cases h

/-- A `Write` that stays in the buffer, or is synced. -/
theorem write_calm {dm : DM} (hsp : ∀ b, (env.split b).2 ≠ some .panic) (hb : Backed dm.cur) (ho : dm.ws.toNat ≤ recorded dm.cur % 2 ^ 64) (b : Bytes) :
    (dm.write env b).1 ≠ .error .panic ∧ ((∃ n, (dm.write env b).1 = .ok n) → ((dm.write env b).2.sync env).1 ≠ .error .panic) := by
  unfold DM.write
  dsimp only
  split
  · have := sync_calm (env := env) (dm := { dm with read := none, buf := some (dm.buf.getD [] ++ b), cw := dm.cw + UInt64.ofNat b.length }) hsp hb (fun _ => ho)
    have h2 := sync_buf (env := env) { dm with read := none, buf := some (dm.buf.getD [] ++ b), cw := dm.cw + UInt64.ofNat b.length }
    generalize DM.sync env { dm with read := none, buf := some (dm.buf.getD [] ++ b), cw := dm.cw + UInt64.ofNat b.length } = r at this h2 ⊢
    obtain ⟨r, dm'⟩ := r
    cases r with
    | error e => exact ⟨fun h => this (by cases h; rfl), fun h => by obtain ⟨n, h⟩ := h; cases h⟩
    | ok u =>
      refine ⟨(fun h => by cases h), fun _ => ?_⟩
      have h2 := h2 rfl
      dsimp only at h2 ⊢
      unfold DM.sync
      rw [h2]
      exact fun h => by cases h
  · exact ⟨(fun h => by cases h), fun _ => sync_calm hsp hb (fun _ => ho)⟩

/-- The first call is `WriteAt`, not past the recorded end. -/
theorem writeAt_calm {dm : DM} (hsp : ∀ b, (env.split b).2 ≠ some .panic) (hbuf : dm.buf = none) (hws : dm.ws = 0) (hcw : dm.cw = 0) (hb : Backed dm.cur)
    {off : Int} (h0 : 0 ≤ off) (h1 : off ≤ recorded dm.cur) (h2 : recorded dm.cur < 2 ^ 63) (b : Bytes) :
    (dm.writeAt env b off).1 ≠ .error .panic ∧ ((∃ n, (dm.writeAt env b off).1 = .ok n) → ((dm.writeAt env b off).2.sync env).1 ≠ .error .panic) := by
  have hmod : recorded dm.cur % 2 ^ 64 = recorded dm.cur := Nat.mod_eq_of_lt (by omega)
  unfold DM.writeAt
  rw [if_neg (by rw [hbuf]; simp)]
  split
  next hne =>
    cases e : fileSize dm.cur with
    | error e' =>
      have hsz : dm.size = .error e' := by unfold DM.size; rw [e]
      rw [hsz]
      refine ⟨fun h => fileSize_calm dm.cur (by cases h; exact e), fun h => by obtain ⟨n, h⟩ := h; cases h⟩
    | ok fs =>
      have hfs := fileSize_recorded e
      have hsz : dm.size = .ok (s64 fs) := by unfold DM.size; rw [e, hbuf]
      have hs : s64 fs = recorded dm.cur := by
        unfold s64
        rw [Reader.i64_id (by omega) (by omega), hfs, hmod]
      have hsy : dm.sync env = (.ok (), dm) := by unfold DM.sync; rw [hbuf]
      rw [hsz, hs]
      dsimp only
      rw [if_neg (by omega)]
      dsimp only
      rw [hsy]
      exact write_calm (dm := { dm with ws := u64 off }) hsp hb (by rw [hmod, u64_toNat h0 (by omega)]; omega) b
  next he => exact write_calm hsp hb (by rw [hws]; simp) b

theorem new_fields {n : Node} {dm : DM} (h : newDagModifier n = .ok dm) : dm.cur = n ∧ dm.buf = none ∧ dm.ws = 0 ∧ dm.cw = 0 := by
  unfold newDagModifier at h
  split at h
  · cases h; exact ⟨rfl, rfl, rfl, rfl⟩
  · cases h; exact ⟨rfl, rfl, rfl, rfl⟩
  · cases h

end Unixfs.Mod
