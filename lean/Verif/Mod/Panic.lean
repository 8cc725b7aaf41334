import Verif.Mod.Any
import Verif.File.Robust

/-!
# What a call can fail for (C82)
-/

namespace Unixfs.Mod
open Unixfs Unixfs.Import Unixfs.Spec Unixfs.Props

/-! ### A reader does not panic -/

/-- A visitor that never panics. Used in specifications and proofs only. -/
def CalmV {σ : Type} (v : Visitor σ) : Prop := ∀ n s, (v n s).1 ≠ .fail .panic

theorem down_calm {σ : Type} (net : Net) (root : Node) {v : Visitor σ} (hv : CalmV v) (w : WS σ) : (down net root v w).1 ≠ .err .panic := by
  have key : ∀ n p t s, (visitChild v n p t s).1 ≠ .err .panic := by
    intro n p t s h
    have := hv n s
    unfold visitChild at h
    generalize v n s = r at h this
    obtain ⟨r, i, s'⟩ := r
    cases r with
    | cont => cases h
    | pause => cases h
    | fail e => cases h; exact this rfl
  unfold down
  split
  · exact key _ _ _ _
  · split
    · exact fun h => by cases h
    · split
      · exact key _ _ _ _
      · exact fun h => by cases h

theorem iterate_calm {σ : Type} (net : Net) (root : Node) {v : Visitor σ} (hv : CalmV v) : ∀ (k : Nat) (w : WS σ), (iterate net root v k w).1 ≠ .err .panic := by
  intro k
  induction k with
  | zero => exact fun w h => by cases h
  | succ k ih =>
    intro w
    have hd := down_calm net root hv w
    unfold iterate
    split
    · exact ih _
    · exact fun h => by cases h
    next e w' e1 =>
      rw [e1] at hd
      exact fun h => hd (by cases h; rfl)
    · split
      · exact ih _
      · exact fun h => by cases h

theorem walkSeek_calm {σ : Type} (net : Net) (root : Node) {v : Visitor σ} (hv : CalmV v) : ∀ (k : Nat) (w : WS σ), (walkSeek net root v k w).1 ≠ some .panic := by
  intro k
  induction k with
  | zero => exact fun w h => by cases h
  | succ k ih =>
    intro w
    have hd := down_calm net root hv w
    unfold walkSeek
    split
    · exact ih _
    · exact fun h => by cases h
    · exact fun h => by cases h
    next e w' e1 =>
      rw [e1] at hd
      exact fun h => hd (by cases h; rfl)

theorem readData_calm {n : Node} : readUnixFSNodeData n ≠ .error .panic := by
  intro h
  unfold readUnixFSNodeData at h
  split at h
  · split at h
    · cases h
    · split at h <;> cases h
  · cases h
  · cases h

theorem extract_calm {n : Node} : extractFSNode n ≠ .error .panic := by
  intro h
  unfold extractFSNode at h
  split at h
  · exact (File.fromBytes_sane h).1 rfl
  · cases h

theorem readVisitor_calm : CalmV readVisitor := by
  intro n s
  unfold readVisitor
  split
  · exact fun h => by cases h
  · split
    next e he => intro h; cases h; exact readData_calm he
    · dsimp only
      split <;> exact fun h => by cases h

theorem seekVisitor_calm : CalmV seekVisitor := by
  intro n s
  unfold seekVisitor
  split
  next hl =>
    split
    next e he => intro h; cases h; exact extract_calm he
    next fs _ =>
      split
      · exact fun h => by cases h
      next hn =>
        rw [Reader.skipLoop_all (by simpa [FSNode.numChildren, FSNode.blockSizes] using hn) (fun h => hl (List.length_eq_zero_iff.mp h))]
        exact fun h => by cases h
  · split
    next e he => intro h; cases h; exact readData_calm he
    · exact fun h => by cases h

theorem read_calm (net : Net) (dr : DR) (k : Nat) : (dr.read net k).1.err ≠ some .panic := by
  unfold DR.read
  dsimp only
  generalize (if dr.cur.isSome then ({ cur := dr.cur, offset := dr.offset, out := [], space := k } : RS).readBuf
      else { cur := dr.cur, offset := dr.offset, out := [], space := k }) = s
  split
  · exact fun h => by cases h
  · have := iterate_calm net dr.root readVisitor_calm (walkFuel dr.root) { path := dr.path, tick := dr.tick, s := s }
    generalize iterate net dr.root readVisitor (walkFuel dr.root) { path := dr.path, tick := dr.tick, s := s } = r at this
    obtain ⟨r, w⟩ := r
    cases r with
    | paused => exact fun h => by cases h
    | endOfDag => exact fun h => by cases h
    | err e => exact fun h => this (by cases h; rfl)

theorem seekStart_calm (net : Net) (dr : DR) (off : Int) : (dr.seekStart net off).1.err ≠ some .panic := by
  unfold DR.seekStart
  split
  · exact fun h => by cases h
  · split
    · exact fun h => by cases h
    · dsimp only
      split
      · exact fun h => by cases h
      · have := walkSeek_calm net dr.root seekVisitor_calm (walkFuel dr.root) { path := [], tick := dr.tick, s := { left := off.toNat, cur := none } }
        generalize walkSeek net dr.root seekVisitor (walkFuel dr.root) { path := [], tick := dr.tick, s := { left := off.toNat, cur := none } } = r at this
        obtain ⟨r, w⟩ := r
        cases r with
        | none => exact fun h => by cases h
        | some e => exact fun h => this (by cases h; rfl)

theorem seek_calm (net : Net) (dr : DR) (off whence : Int) : (dr.seek net off whence).1.err ≠ some .panic := by
  unfold DR.seek
  split
  · exact seekStart_calm _ _ _
  · split
    · split
      · exact fun h => by cases h
      · exact seekStart_calm _ _ _
    · split
      · exact seekStart_calm _ _ _
      · exact fun h => by cases h

mutual
theorem open_calm (net : Net) : ∀ (n : Node) (t : Nat), newDagReader net t n ≠ .error .panic
  | .raw _ _, _ => fun h => by cases h
  | .other _, _ => fun h => by cases h
  | .proto d ls b, t => fun h => by
    unfold newDagReader at h
    cases hf : FSNode.fromBytes d with
    | error e =>
      rw [hf] at h
      cases h
      exact (File.fromBytes_sane hf).1 rfl
    | ok fs =>
      rw [hf] at h
      dsimp only at h
      by_cases h1 : fs.type = TFile ∨ fs.type = TRaw
      · rw [if_pos h1] at h; cases h
      · rw [if_neg h1] at h
        by_cases h2 : fs.type = TDirectory ∨ fs.type = THAMTShard
        · rw [if_pos h2] at h; cases h
        · rw [if_neg h2] at h
          by_cases h3 : fs.type = TMetadata
          · rw [if_pos h3] at h; exact openMeta_calm net ls t h
          · rw [if_neg h3] at h
            by_cases h4 : fs.type = TSymlink
            · rw [if_pos h4] at h; cases h
            · rw [if_neg h4] at h; cases h
theorem openMeta_calm (net : Net) : ∀ (ls : List Link) (t : Nat), newDagReaderMeta net t ls ≠ .error .panic
  | [], _ => fun h => by cases h
  | .mk _ _ child :: _, t => fun h => by
    unfold newDagReaderMeta at h
    by_cases h1 : net t child = true
    · rw [if_pos h1] at h
      by_cases h2 : child.isProto = true
      · rw [if_pos h2] at h; exact open_calm net child (t + 1) h
      · rw [if_neg h2] at h; cases h
    · rw [if_neg h1] at h; cases h
end

/-! ### Calls of a modifier -/

/-- The splitter, and a reader of a node that was changed under it, do not panic.
Used in specifications and proofs only. -/
def CalmEnv (env : Env) : Prop := (∀ b, (env.split b).2 ≠ some .panic) ∧ ∀ t, (env.odd t).1.err ≠ some .panic

variable {env : Env} {root : Node} {dm : DM} {f : F}

theorem Failure.calm {e : Err} (hc : CalmEnv env) (h : Failure env (fun _ => True) e) : e ≠ .panic := by
  rintro rfl
  rcases h with (⟨h, _⟩ | ⟨h, _⟩) | ⟨b, h | ⟨h, _⟩⟩
  · cases h
  · cases h
  · exact hc.1 b h
  · cases h

theorem readOpen_calm (env : Env) (dm : DM) (pos : Int) : (dm.readOpen env pos).1 ≠ .error .panic := by
  unfold DM.readOpen
  split
  next e he => exact fun h => by cases h; exact open_calm _ _ _ he
  next dr he =>
    have := seek_calm env.get dr pos 0
    generalize dr.seek env.get pos 0 = q at this ⊢
    obtain ⟨r, dr'⟩ := q
    dsimp only at this ⊢
    cases h1 : r.err with
    | some e => rw [h1] at this; exact fun h => this (by cases h; rfl)
    | none =>
      dsimp only
      split <;> exact fun h => by cases h

theorem readPrep_calm (env : Env) (dm : DM) : (dm.readPrep env).1 ≠ .error .panic := by
  unfold DM.readPrep
  cases dm.read with
  | some r => exact fun h => by cases h
  | none => exact readOpen_calm _ _ _

theorem readerRead_calm (hc : CalmEnv env) (r : RD) (tick k : Nat) : (DM.readerRead env r tick k).1.err ≠ some .panic := by
  unfold DM.readerRead
  split
  · exact hc.2 tick
  · exact read_calm _ _ _

theorem readerSeek_calm (hc : CalmEnv env) (r : RD) (tick : Nat) (off whence : Int) : (DM.readerSeek env r tick off whence).1.err ≠ some .panic := by
  unfold DM.readerSeek
  split
  · exact hc.2 tick
  · exact seek_calm _ _ _ _

/-- `Sync`. -/
theorem sync_err (hsp : SplitOK env) (hR : R0 root True dm f) : ∀ e, (dm.sync env).1 = .error e → Failure env (fun _ => True) e := by
  intro e he
  rcases sync_sim hsp hR (.inl trivial) with ⟨e', dm', e1, hf⟩ | ⟨dm', e1, _⟩
  · rw [e1] at he; cases he; exact hf
  · rw [e1] at he; cases he

/-- `Read`. -/
theorem read_err (hc : CalmEnv env) (hsp : SplitOK env) (hR : R0 root True dm f) (k : Nat) : (dm.readN env k).1.err ≠ some .panic := by
  have hs := sync_err hsp hR
  unfold DM.readN
  generalize dm.sync env = S at hs ⊢
  obtain ⟨r, dm'⟩ := S
  cases r with
  | error e => exact fun h => (hs e rfl).calm hc (by cases h; rfl)
  | ok u =>
    dsimp only
    have hp := readPrep_calm env dm'
    generalize dm'.readPrep env = P at hp ⊢
    obtain ⟨r, dm2⟩ := P
    cases r with
    | error e => exact fun h => hp (by cases h; rfl)
    | ok r => exact readerRead_calm hc r dm2.svc.tick k

theorem seekTail_err {off whence pos : Int} {new : UInt64} (hc : CalmEnv env) (hR : R0 root True dm f) (t1 : pos < 2 ^ 63) :
    (dm.seekTail env f.c.length new pos off whence).1 ≠ .error .panic := by
  unfold DM.seekTail
  have hx : ∀ r, (if pos > (f.c.length : Int) then dm.expandSparse env (i64 (pos - f.c.length)) else (.ok (), dm)) = r → r.1 ≠ .error .panic := by
    rintro r rfl
    split
    · next hgt =>
      rw [Reader.i64_id (by omega) (by omega), show pos - (f.c.length : Int) = ((pos.toNat - f.c.length : Nat) : Int) by omega]
      rcases expand_sim (env := env) hR (pos.toNat - f.c.length) (by omega) trivial with ⟨e, dm2, e2, hf⟩ | ⟨dm2, e2, _⟩
      · rw [e2]; exact fun h => hf.calm hc (by cases h; rfl)
      · rw [e2]; exact fun h => by cases h
    · exact fun h => by cases h
  have hx := hx _ rfl
  generalize (if pos > (f.c.length : Int) then dm.expandSparse env (i64 (pos - f.c.length)) else (.ok (), dm)) = X at hx ⊢
  obtain ⟨r, dm2⟩ := X
  cases r with
  | error e => exact fun h => hx (by cases h; rfl)
  | ok u =>
    dsimp only
    cases hrd : dm2.read with
    | none => exact fun h => by cases h
    | some r =>
      dsimp only
      have := readerSeek_calm hc r dm2.svc.tick off whence
      generalize DM.readerSeek env r dm2.svc.tick off whence = q at this ⊢
      obtain ⟨res, dr⟩ := q
      dsimp only at this ⊢
      cases h1 : res.err with
      | some e => rw [h1] at this; exact fun h => this (by cases h; rfl)
      | none => exact fun h => by cases h

/-- `Seek`. -/
theorem seek_err {B : Nat} (hc : CalmEnv env) (hsp : SplitOK env) (hR : R0 root True dm f) (hle : f.Le B) (off whence : Int) (hB : B + off.natAbs < 2 ^ 63) :
    (dm.seek env off whence).1 ≠ .error .panic := by
  unfold DM.seek
  rcases sync_sim hsp hR (.inl trivial) with ⟨e, dm', e1, hf⟩ | ⟨dm', e1, hR, _⟩
  · rw [e1]
    exact fun h => hf.calm hc (by cases h; rfl)
  · rw [e1]
    dsimp only
    have hff := F.flush_flush f
    have h1 := F.flush_le hle.1 hle.2.1
    have h3 : f.flush.cw ≤ B := by rw [F.flush_cw]; exact hle.2.2
    generalize f.flush = f at hR hff h1 h3
    rw [hR.size, hff]
    dsimp only
    cases hT : dm'.seekTo f.c.length off whence with
    | error e' =>
      intro h
      have he : e' = .panic := by cases h; rfl
      subst he
      unfold DM.seekTo at hT
      split at hT
      · cases hT
      · split at hT
        · cases hT
        · split at hT <;> cases hT
    | ok new =>
      dsimp only
      obtain ⟨t1, t2, t3⟩ := seekTo_ok (B := B) (by rw [hR.cw]; exact h3) h1 hB hT
      generalize s64 new = pos at t1 t2 t3 ⊢
      exact seekTail_err hc hR (by omega)

/-- `Truncate`. -/
theorem truncate_err {B : Nat} (hsp : SplitOK env) (hR : R0 root True dm f) (hle : f.Le B) (n : Nat) (hB : B + n < 2 ^ 63) :
    ∀ e, (dm.truncate env n).1 = .error e → Failure env (fun _ => True) e := by
  intro e he
  unfold DM.truncate at he
  rcases sync_sim hsp hR (.inl trivial) with ⟨e', dm', e1, hf⟩ | ⟨dm', e1, hR, _⟩
  · rw [e1] at he; cases he; exact hf
  · rw [e1] at he
    dsimp only at he
    have hff := F.flush_flush f
    have h1 := F.flush_le hle.1 hle.2.1
    generalize f.flush = f at hR hff h1
    rw [hR.size, hff] at he
    dsimp only at he
    by_cases heq : (n : Int) = f.c.length
    · rw [if_pos heq] at he; cases he
    · rw [if_neg heq] at he
      by_cases hgt : (n : Int) > f.c.length
      · rw [if_pos hgt, Reader.i64_id (by omega) (by omega), show (n : Int) - (f.c.length : Int) = ((n - f.c.length : Nat) : Int) by omega] at he
        rcases expand_sim (env := env) hR (n - f.c.length) (by omega) trivial with ⟨e', dm2, e2, hf⟩ | ⟨dm2, e2, _⟩
        · rw [e2] at he; cases he; exact hf
        · rw [e2] at he; cases he
      · rw [if_neg hgt] at he
        have hu : (u64 (n : Int)).toNat = n := by rw [u64_toNat (by omega) (by omega)]; simp
        have hC := cut_spec env dm' (u64 n) hR.sizes hR.cont (by omega) (by omega)
        generalize dagTruncate env dm'.cur (u64 n) dm'.svc = S at hC he
        obtain ⟨r, s1⟩ := S
        cases r with
        | error e' => cases he; exact .inl (hC.2.mono (fun _ _ => trivial))
        | ok k =>
          dsimp only at hC he
          generalize Svc.add env k s1 = S at hC he
          obtain ⟨r, s2⟩ := S
          cases r with
          | error e' => cases he; exact .inl (hC.2.mono (fun _ _ => trivial))
          | ok u => cases he

/-- A call with a result that is known. Used in specifications and proofs only. -/
def CallOK (env : Env) (op : MOp) (r : MRes) : Prop :=
  r.err ≠ some .panic ∧ ((∃ k, op = .read k) ∨ (∃ o w, op = .seek o w) ∨ r.err = none ∨ OutsideFailure env r)

theorem CallOK.outside {op : MOp} {r : MRes} (hc : CalmEnv env) (h : OutsideFailure env r) : CallOK env op r := by
  refine ⟨fun hp => ?_, .inr (.inr (.inr h))⟩
  rcases h with ⟨h, _⟩ | ⟨h, _⟩ | ⟨b, e, h, h'⟩ | ⟨h, _⟩
  · rw [h] at hp; cases hp
  · rw [h] at hp; cases hp
  · rw [h] at hp; cases hp; exact hc.1 b h'
  · rw [h] at hp; cases hp

theorem CallOK.none {op : MOp} {r : MRes} (h : r.err = none) : CallOK env op r :=
  ⟨fun hp => (by rw [h] at hp; cases hp), .inr (.inr (.inl h))⟩

/-- Every call. -/
theorem W.callOK {B : Nat} (hc : CalmEnv env) (hsp : SplitOK env) (h : W root B dm) (op : MOp) (hn : NonNeg op) (hB : B + reachOf op < 2 ^ 63) :
    CallOK env op (dm.step env op).1 := by
  obtain ⟨f, hR, h1, h2, h3⟩ := h
  cases op with
  | write b =>
    simp only [reachOf] at hB
    simp only [DM.step]
    rcases write_sim hsp hR b (by omega) (by omega) (.inl trivial) with hf | ⟨dm', e, _⟩
    · exact .outside hc hf.num
    · rw [e]; exact .none rfl
  | writeAt b off =>
    have hn : 0 ≤ off.toInt := hn
    obtain ⟨o, ho⟩ : ∃ o : Nat, off.toInt = o := ⟨off.toInt.toNat, by omega⟩
    simp only [reachOf, ho, Int.natAbs_natCast] at hB
    simp only [DM.step, ho]
    rcases writeAt_sim hsp hR b o (by omega) (by omega) (.inr ⟨trivial, by omega⟩) (.inl trivial) (.inl trivial) with hf | ⟨dm', e, _⟩
    · exact .outside hc hf.num
    · rw [e]; exact .none rfl
  | read k => exact ⟨read_err hc hsp hR k, .inl ⟨k, rfl⟩⟩
  | seek off whence =>
    have := seek_err hc hsp hR ⟨h1, h2, h3⟩ off.toInt whence hB
    refine ⟨?_, .inr (.inl ⟨_, _, rfl⟩)⟩
    simp only [DM.step]
    generalize (dm.seek env off.toInt whence).1 = r at this
    cases r with
    | ok n => exact fun h => by cases h
    | error e => exact fun h => this (by cases h; rfl)
  | truncate s =>
    have hn : 0 ≤ s.toInt := hn
    obtain ⟨o, ho⟩ : ∃ o : Nat, s.toInt = o := ⟨s.toInt.toNat, by omega⟩
    simp only [reachOf, ho, Int.natAbs_natCast] at hB
    simp only [DM.step, ho]
    have := truncate_err hsp hR ⟨h1, h2, h3⟩ o hB
    generalize (dm.truncate env o).1 = r at this
    cases r with
    | ok n => exact .none rfl
    | error e => exact .outside hc ((this e rfl).outside rfl)
  | sync =>
    have := sync_err hsp hR
    simp only [DM.step]
    generalize (dm.sync env).1 = r at this
    cases r with
    | ok n => exact .none rfl
    | error e => exact .outside hc ((this e rfl).outside rfl)
  | getNode =>
    have := sync_err hsp hR
    simp only [DM.step, DM.getNode]
    generalize dm.sync env = r at this
    obtain ⟨r, dm'⟩ := r
    cases r with
    | ok n => exact .none rfl
    | error e => exact .outside hc ((this e rfl).outside rfl)
  | size =>
    simp only [DM.step]
    rw [hR.size]
    exact .none rfl
  | hasChanges => exact .none rfl

end Unixfs.Mod
