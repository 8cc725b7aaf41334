import Verif.Mod.Hist

/-!
# Any history of calls keeps a well-formed DAG

Whatever the caller does, careful or not: as long as no call reports an error, the current DAG has
true sizes, `Size` is the length of its content with the pending bytes, and everything is stored.

The definitions in this file belong to proofs; they model no code.
-/

namespace Unixfs.Mod
open Unixfs Unixfs.Import Unixfs.Spec Unixfs.Props

/-- A property of the captured state kept by the visitor is kept by the walk. -/
theorem iterate_keeps {σ : Type} (P : σ → Prop) (net : Net) (root : Node) (v : Visitor σ) (hv : ∀ n s, P s → P (v n s).2.2) :
    ∀ (k : Nat) (w : WS σ), P w.s → P (iterate net root v k w).2.s := by
  intro k
  induction k with
  | zero => intro w h; exact h
  | succ k ih =>
    intro w h
    have hd : P (down net root v w).2.s := by
      unfold down
      split
      · exact hv root w.s h
      · split
        · exact h
        · split
          · exact hv _ w.s h
          · exact h
    unfold iterate
    split
    next w' e => rw [e] at hd; exact ih w' hd
    next w' e => rw [e] at hd; exact hd
    next e' w' e => rw [e] at hd; exact hd
    next w' e =>
      rw [e] at hd
      split
      · exact ih _ hd
      · exact hd

theorem readBuf_le (s : RS) : s.readBuf.out.length + s.readBuf.space = s.out.length + s.space := by
  unfold RS.readBuf
  simp only [List.length_append, List.length_take]
  omega

/-- `Read` never delivers more than it was asked for, whatever the reader. -/
theorem read_le (net : Net) (dr : DR) (k : Nat) : (dr.read net k).1.bytes.length ≤ k := by
  have hs : ∀ s : RS, s = (if dr.cur.isSome then ({ cur := dr.cur, offset := dr.offset, out := [], space := k } : RS).readBuf
      else { cur := dr.cur, offset := dr.offset, out := [], space := k }) → s.out.length + s.space = k := by
    rintro s rfl
    split
    · rw [readBuf_le]; simp
    · simp
  unfold DR.read
  dsimp only
  generalize hS : (if dr.cur.isSome then ({ cur := dr.cur, offset := dr.offset, out := [], space := k } : RS).readBuf
      else { cur := dr.cur, offset := dr.offset, out := [], space := k }) = s
  have h0 := hs s hS.symm
  split
  · show s.out.length ≤ k; omega
  · have := iterate_keeps (fun s : RS => s.out.length + s.space = k) net dr.root readVisitor (by
      intro n s h
      unfold readVisitor
      split
      · exact h
      · split
        · exact h
        · show (RS.readBuf _).out.length + (RS.readBuf _).space = k
          rw [readBuf_le]; exact h) (walkFuel dr.root) { path := dr.path, tick := dr.tick, s := s } h0
    show (iterate net dr.root readVisitor (walkFuel dr.root) { path := dr.path, tick := dr.tick, s := s }).2.s.out.length ≤ k
    omega

theorem readerRead_le (env : Env) (r : RD) (tick k : Nat) : (DM.readerRead env r tick k).1.bytes.length ≤ k := by
  unfold DM.readerRead
  split
  · simp
  · exact read_le _ _ _

variable {env : Env} {root : Node} {dm : DM} {f : F}

/-- Fields the relation does not look at. -/
theorem R0.congr {g : Prop} {dm dm' : DM} (h : R0 root g dm f) (h1 : dm'.cur = dm.cur) (h2 : dm'.ws = dm.ws) (h3 : dm'.cw = dm.cw) (h4 : dm'.buf = dm.buf)
    (h5 : dm'.svc.stored = dm.svc.stored) : R0 root g dm' f :=
  ⟨by rw [h1]; exact h.sizes, by rw [h1]; exact h.cont, by rw [h2]; exact h.ws, by rw [h3]; exact h.cw, by rw [h4]; exact h.buf, h.lenc, h.lenw, h.lencw,
    by rw [h1]; exact h.grow, by rw [h1, h5]; exact h.store⟩

/-- What is kept by every call; `B` bounds all lengths and positions. -/
structure W (root : Node) (B : Nat) (dm : DM) : Prop where
  mk ::
  ex : ∃ f, R0 root True dm f ∧ f.c.length ≤ B ∧ f.ws + f.pend.length ≤ B ∧ f.cw ≤ B

theorem F.flush_le {B : Nat} (h1 : f.c.length ≤ B) (h2 : f.ws + f.pend.length ≤ B) : f.flush.c.length ≤ B := by
  rw [F.flush_len]; split <;> omega

theorem F.write_le {B : Nat} (w : Nat) (b : Bytes) (h1 : f.c.length ≤ B) (h2 : f.ws + f.pend.length + b.length ≤ B) :
    (f.write w b).c.length ≤ B := by
  unfold F.write
  dsimp only
  split
  · exact F.flush_le h1 (by simp [F.pend] at h2 ⊢; omega)
  · exact h1

theorem not_failed {α : Type} {p : Except Err α × DM} (h : Failed env p) (hr : ∃ a, p.1 = .ok a) : False := by
  obtain ⟨e, dm', rfl, _⟩ := h; obtain ⟨a, ha⟩ := hr; cases ha

theorem num_ok {p : Except Err Int} (h : (MRes.num p).err = none) : ∃ a, p = .ok a ∧ (MRes.num p).n = a := by
  cases p with
  | ok a => exact ⟨a, rfl, rfl⟩
  | error e => cases h

theorem unit_ok {p : Except Err Unit} (h : (MRes.unit p).err = none) : ∃ a, p = .ok a := by
  cases p with
  | ok a => exact ⟨a, rfl⟩
  | error e => cases h

/-- `Write`. -/
theorem W.write {B : Nat} (hsp : SplitOK env) (h : W root B dm) (b : Bytes) (hB : B + b.length < 2 ^ 63) (hr : ∃ a, (dm.write env b).1 = .ok a) :
    W root (B + b.length) (dm.write env b).2 := by
  obtain ⟨f, hR, h1, h2, h3⟩ := h
  rcases write_sim hsp hR b (by omega) (by omega) (.inl trivial) with hf | ⟨dm', e, hR', _, _⟩
  · exact (not_failed hf hr).elim
  · rw [e]
    obtain ⟨e1, e2, e3, e4, e5⟩ := F.write_view f env.wbuf b
    exact ⟨_, hR'.base, F.write_le _ _ (by omega) (by omega), by omega, by omega⟩

theorem F.writeAt_le {B : Nat} (w : Nat) (b : Bytes) (off : Nat) (h1 : f.c.length ≤ B) (h2 : f.ws + f.pend.length ≤ B) (h3 : f.cw ≤ B) :
    (f.writeAt w b off).c.length ≤ B + (off + b.length) ∧ (f.writeAt w b off).ws + (f.writeAt w b off).pend.length ≤ B + (off + b.length) ∧
    (f.writeAt w b off).cw ≤ B + (off + b.length) := by
  have key : ∀ f1 : F, f1.c.length ≤ B + off → f1.ws + f1.pend.length ≤ B + off → f1.cw ≤ B + off →
      (f1.write w b).c.length ≤ B + (off + b.length) ∧ (f1.write w b).ws + (f1.write w b).pend.length ≤ B + (off + b.length) ∧
      (f1.write w b).cw ≤ B + (off + b.length) := by
    intro f1 k1 k2 k3
    obtain ⟨e1, e2, e3, e4, e5⟩ := F.write_view f1 w b
    exact ⟨F.write_le _ _ (by omega) (by omega), by omega, by omega⟩
  unfold F.writeAt
  split
  · split
    · exact key _ (by show f.c.length ≤ _; omega) (by show f.ws + 0 ≤ _; omega) (by show f.cw ≤ _; omega)
    · exact key _ (by omega) (by omega) (by omega)
  · split
    · have hfl := F.flush_le h1 h2
      refine key _ ?_ ?_ ?_
      · show (F.c (F.flush _)).length ≤ _
        split
        · refine F.flush_le ?_ (by show f.ws + f.pend.length ≤ _; omega)
          simp only [F.expand, List.length_append, zeros, List.length_replicate]
          have : f.c.length ≤ f.flush.c.length := by rw [F.flush_len]; split <;> omega
          omega
        · omega
      · show off + (F.pend (F.flush _)).length ≤ _
        rw [F.flush_pend]; simp
      · show F.cw (F.flush _) ≤ _
        rw [F.flush_cw]
        have : (if off > f.flush.c.length then f.expand (off - f.flush.c.length) else f).cw = f.cw := by split <;> rfl
        omega
    · exact key _ (by omega) (by omega) (by omega)

/-- `WriteAt`. -/
theorem W.writeAt {B : Nat} (hsp : SplitOK env) (h : W root B dm) (b : Bytes) (off : Nat) (hB : B + (off + b.length) < 2 ^ 63)
    (hr : ∃ a, (dm.writeAt env b off).1 = .ok a) : W root (B + (off + b.length)) (dm.writeAt env b off).2 := by
  obtain ⟨f, hR, h1, h2, h3⟩ := h
  rcases writeAt_sim hsp hR b off (by omega) (by omega) (.inr ⟨trivial, by omega⟩) (.inl trivial) (.inl trivial) with hf | ⟨dm', e, hR', _, _⟩
  · exact (not_failed hf hr).elim
  · rw [e]
    obtain ⟨k1, k2, k3⟩ := F.writeAt_le env.wbuf b off h1 h2 h3
    exact ⟨_, hR'.base, k1, k2, k3⟩

/-- `Sync`. -/
theorem W.sync {B : Nat} (hsp : SplitOK env) (h : W root B dm) (hr : ∃ a, (dm.sync env).1 = .ok a) :
    ∃ dm' f, dm.sync env = (.ok (), dm') ∧ R0 root True dm' f ∧ f.buf = none ∧ f.c.length ≤ B ∧ f.ws ≤ B ∧ f.cw ≤ B ∧ f.flush = f := by
  obtain ⟨f, hR, h1, h2, h3⟩ := h
  rcases sync_sim hsp hR (.inl trivial) with hf | ⟨dm', e, hR', _⟩
  · exact (not_failed hf hr).elim
  · exact ⟨dm', f.flush, e, hR', F.flush_buf f, F.flush_le h1 h2, by rw [F.flush_ws]; exact h2, by rw [F.flush_cw]; exact h3, F.flush_flush f⟩

theorem readOpen_keeps (env : Env) (dm : DM) (pos : Int) : (dm.readOpen env pos).2.cur = dm.cur ∧ (dm.readOpen env pos).2.ws = dm.ws ∧
    (dm.readOpen env pos).2.cw = dm.cw ∧ (dm.readOpen env pos).2.buf = dm.buf ∧ (dm.readOpen env pos).2.svc.stored = dm.svc.stored := by
  unfold DM.readOpen
  split
  · exact ⟨rfl, rfl, rfl, rfl, rfl⟩
  · split
    split
    · exact ⟨rfl, rfl, rfl, rfl, rfl⟩
    · split <;> exact ⟨rfl, rfl, rfl, rfl, rfl⟩

theorem readPrep_keeps (env : Env) (dm : DM) : (dm.readPrep env).2.cur = dm.cur ∧ (dm.readPrep env).2.ws = dm.ws ∧
    (dm.readPrep env).2.cw = dm.cw ∧ (dm.readPrep env).2.buf = dm.buf ∧ (dm.readPrep env).2.svc.stored = dm.svc.stored := by
  unfold DM.readPrep
  split
  · exact ⟨rfl, rfl, rfl, rfl, rfl⟩
  · exact readOpen_keeps env dm _

/-- `Read`: the DAG stays. -/
theorem W.read {B : Nat} (hsp : SplitOK env) (h : W root B dm) (k : Nat) (hB : B + k < 2 ^ 63)
    (hr : (dm.readN env k).1.err = none ∨ (dm.readN env k).1.err = some .eof) (hs : ∃ a, (dm.sync env).1 = .ok a) : W root (B + k) (dm.readN env k).2 := by
  obtain ⟨dm', f, e, hR, hb, h1, h2, h3, _⟩ := W.sync hsp h hs
  have hpend : f.pend = [] := by simp [F.pend, hb]
  unfold DM.readN
  rw [e]
  dsimp only
  have hP := readPrep_keeps env dm'
  obtain ⟨p1, p2, p3, p4, p5⟩ := hP
  have hR2 := hR.congr p1 p2 p3 p4 p5
  generalize dm'.readPrep env = P at hR2 ⊢
  obtain ⟨r, dm2⟩ := P
  cases r with
  | error e' => exact ⟨f, hR2, by omega, by rw [hpend]; show f.ws + 0 ≤ _; omega, by omega⟩
  | ok r =>
    dsimp only at hR2 ⊢
    have hl := readerRead_le env r dm2.svc.tick k
    generalize DM.readerRead env r dm2.svc.tick k = Q at hl ⊢
    obtain ⟨res, dr⟩ := Q
    dsimp only at hl ⊢
    refine ⟨{ f with cw := f.cw + res.bytes.length }, ⟨hR2.sizes, hR2.cont, hR2.ws, ?_, hR2.buf, hR2.lenc, hR2.lenw, ?_, hR2.grow, hR2.store⟩,
      by show f.c.length ≤ _; omega, by show f.ws + f.pend.length ≤ _; rw [hpend]; show f.ws + 0 ≤ _; omega, by show f.cw + _ ≤ _; omega⟩
    · show (dm2.cw + UInt64.ofNat res.bytes.length).toNat = _
      rw [uadd rfl (by rw [hR2.cw]; omega), hR2.cw]
    · show f.cw + res.bytes.length < _; omega

/-- Where `Seek` goes. -/
theorem seekTo_ok {B : Nat} {len : Nat} {off whence : Int} {new : UInt64} (hcw : dm.cw.toNat ≤ B) (hlen : len ≤ B) (hB : B + off.natAbs < 2 ^ 63)
    (h : dm.seekTo len off whence = .ok new) : (s64 new : Int) ≤ B + off.natAbs ∧ (0 ≤ s64 new → (new.toNat : Int) = s64 new) ∧ (whence = 0 → s64 new = off) := by
  have key : ∀ x : Int, (new.toNat : Int) = x % 2 ^ 64 → x ≤ B + off.natAbs → -(2 ^ 63) ≤ x → (whence = 0 → x = off) →
      (s64 new : Int) ≤ B + off.natAbs ∧ (0 ≤ s64 new → (new.toNat : Int) = s64 new) ∧ (whence = 0 → s64 new = off) := by
    intro x hx h1 h2 h4
    have hs : s64 new = x := by
      unfold s64
      rw [hx]
      unfold i64
      rw [Int.bmod_def]
      simp only [show ((2 ^ 64 : Nat) : Int) = 18446744073709551616 by norm_num]
      split <;> omega
    rw [hs]
    refine ⟨h1, fun h0 => ?_, h4⟩
    rw [hx]; omega
  have hu := toNat_u64 off
  have hul := toNat_u64 (len : Int)
  unfold DM.seekTo at h
  split at h
  · cases h
    refine key (dm.cw.toNat + off) ?_ (by omega) (by omega) (by omega)
    rw [UInt64.toNat_add]; omega
  · split at h
    · cases h; exact key off hu (by omega) (by omega) (fun _ => rfl)
    · split at h
      · cases h
        refine key (len - off) ?_ (by omega) (by omega) (by omega)
        have h3 := (u64 off).toNat_lt
        rw [UInt64.toNat_sub]; omega
      · cases h

/-- The end of `Seek`. -/
theorem W.seekTail {B : Nat} {off whence pos : Int} {new : UInt64} (hR : R0 root True dm f) (hpend : f.pend = []) (h1 : f.c.length ≤ B)
    (t1 : pos ≤ B + off.natAbs) (t2 : 0 ≤ pos → (new.toNat : Int) = pos) (hB : B + off.natAbs < 2 ^ 63)
    (hr : ∃ a, (dm.seekTail env f.c.length new pos off whence).1 = .ok a ∧ 0 ≤ a) :
    (dm.seekTail env f.c.length new pos off whence).1 = .ok pos ∧ 0 ≤ pos ∧ ∃ f2, R0 root True (dm.seekTail env f.c.length new pos off whence).2 f2 ∧
      f2.c = (if f.c.length < pos.toNat then resize f.c pos.toNat else f.c) ∧ f2.c.length ≤ B + off.natAbs ∧ f2.ws = pos.toNat ∧ f2.cw = pos.toNat ∧ f2.pend = [] := by
  unfold DM.seekTail at hr ⊢
  -- after the extension
  obtain hf | ⟨dm2, f2, e2, hR2, k1, k2, k3⟩ : Failed env (if pos > (f.c.length : Int) then dm.expandSparse env (i64 (pos - f.c.length)) else (.ok (), dm)) ∨
      ∃ dm2 f2, (if pos > (f.c.length : Int) then dm.expandSparse env (i64 (pos - f.c.length)) else (.ok (), dm)) = (.ok (), dm2) ∧ R0 root True dm2 f2 ∧
      f2.c.length ≤ B + off.natAbs ∧ f2.pend = [] ∧ f2.c = (if f.c.length < pos.toNat then resize f.c pos.toNat else f.c) := by
    split
    · next hgt =>
      rw [Reader.i64_id (by omega) (by omega), show pos - (f.c.length : Int) = ((pos.toNat - f.c.length : Nat) : Int) by omega]
      refine (expand_sim hR (pos.toNat - f.c.length) (by omega) trivial).imp id ?_
      rintro ⟨dm2, e2, hR2, _⟩
      refine ⟨dm2, _, e2, hR2, ?_, hpend, ?_⟩
      · simp only [F.expand, zeros, List.length_append, List.length_replicate]; omega
      · rw [if_pos (by omega), resize, List.take_of_length_le (by omega)]; rfl
    · exact .inr ⟨dm, f, rfl, hR, by omega, hpend, by rw [if_neg (by omega)]⟩
  · obtain ⟨e', dm2, he, _⟩ := hf
    rw [he] at hr; obtain ⟨a, ha, _⟩ := hr; cases ha
  · rw [e2] at hr ⊢
    dsimp only at hr ⊢
    have hpos : 0 ≤ pos ∧ (match dm2.read with
        | none => (.ok pos : Except Err Int)
        | some r => match (DM.readerSeek env r dm2.svc.tick off whence).1.err with | some e => .error e | none => .ok pos) = .ok pos := by
      obtain ⟨a, ha, h0⟩ := hr
      revert ha
      cases dm2.read with
      | none => intro ha; cases ha; exact ⟨h0, rfl⟩
      | some r =>
        dsimp only
        intro ha
        split at ha
        · cases ha
        · next h => cases ha; exact ⟨h0, by rw [h]⟩
    obtain ⟨hpos, hok⟩ := hpos
    have hn := t2 hpos
    have hn2 : new.toNat = pos.toNat := by omega
    have hres : ∀ dm3 : DM, dm3.cur = dm2.cur → dm3.ws = new → dm3.cw = new → dm3.buf = dm2.buf → dm3.svc.stored = dm2.svc.stored →
        ∃ f2, R0 root True dm3 f2 ∧ f2.c = (if f.c.length < pos.toNat then resize f.c pos.toNat else f.c) ∧ f2.c.length ≤ B + off.natAbs ∧
          f2.ws = pos.toNat ∧ f2.cw = pos.toNat ∧ f2.pend = [] := by
      intro dm3 q1 q2 q3 q4 q5
      refine ⟨{ f2 with ws := pos.toNat, cw := pos.toNat }, ⟨by rw [q1]; exact hR2.sizes, by rw [q1]; exact hR2.cont, by rw [q2]; exact hn2, by rw [q3]; exact hn2,
        by rw [q4]; exact hR2.buf, hR2.lenc, ?_, ?_, by rw [q1]; exact hR2.grow, by rw [q1, q5]; exact hR2.store⟩, k3, k1, rfl, rfl, k2⟩
      · show pos.toNat + f2.pend.length < _; rw [k2]; show pos.toNat + 0 < _; omega
      · show pos.toNat < _; omega
    generalize dm2.read = rd at hok ⊢
    cases rd with
    | none => exact ⟨rfl, hpos, hres _ rfl rfl rfl rfl rfl⟩
    | some r => exact ⟨hok, hpos, hres _ rfl rfl rfl rfl rfl⟩

/-- The bounds of `W`. -/
def F.Le (f : F) (B : Nat) : Prop := f.c.length ≤ B ∧ f.ws + f.pend.length ≤ B ∧ f.cw ≤ B

theorem sync_any {B : Nat} (hsp : SplitOK env) (hR : R0 root True dm f) (hle : f.Le B) (hr : ∃ a, (dm.sync env).1 = .ok a) :
    ∃ dm', dm.sync env = (.ok (), dm') ∧ R0 root True dm' f.flush ∧ f.flush.Le B := by
  rcases sync_sim hsp hR (.inl trivial) with hf | ⟨dm', e, hR', _⟩
  · exact (not_failed hf hr).elim
  · refine ⟨dm', e, hR', F.flush_le hle.1 hle.2.1, ?_, ?_⟩
    · rw [F.flush_ws, F.flush_pend]; exact hle.2.1
    · rw [F.flush_cw]; exact hle.2.2

/-- `Seek`, to a place that is not before the beginning. -/
theorem seek_any {B : Nat} (hsp : SplitOK env) (hR : R0 root True dm f) (hle : f.Le B) (off whence : Int) (hB : B + off.natAbs < 2 ^ 63)
    (hs : ∃ a, (dm.sync env).1 = .ok a) (hr : ∃ a, (dm.seek env off whence).1 = .ok a ∧ 0 ≤ a) :
    ∃ (a : Nat) (f2 : F), (dm.seek env off whence).1 = .ok (a : Int) ∧ (whence = 0 → (a : Int) = off) ∧ R0 root True (dm.seek env off whence).2 f2 ∧
      f2.c = (if f.flush.c.length < a then resize f.flush.c a else f.flush.c) ∧ f2.ws = a ∧ f2.cw = a ∧ f2.pend = [] ∧ f2.Le (B + off.natAbs) := by
  obtain ⟨dm', e, hR, h1, h2, h3⟩ := sync_any hsp hR hle hs
  have hff := F.flush_flush f
  have hpend := F.flush_pend f
  generalize f.flush = f at hR h1 h2 h3 hff hpend ⊢
  unfold DM.seek at hr ⊢
  rw [e] at hr ⊢
  dsimp only at hr ⊢
  rw [hR.size, hff] at hr ⊢
  dsimp only at hr ⊢
  cases hT : dm'.seekTo f.c.length off whence with
  | error e' => rw [hT] at hr; obtain ⟨a, ha, _⟩ := hr; cases ha
  | ok new =>
    rw [hT] at hr
    dsimp only at hr ⊢
    obtain ⟨t1, t2, t3⟩ := seekTo_ok (B := B) (by rw [hR.cw]; exact h3) h1 hB hT
    generalize s64 new = pos at t1 t2 t3 hr ⊢
    obtain ⟨r1, r2, f2, r3, r4, r5, r6, r7, r8⟩ := W.seekTail hR hpend h1 t1 t2 hB hr
    refine ⟨pos.toNat, f2, by rw [Int.toNat_of_nonneg r2]; exact r1, fun h => by rw [← t3 h]; omega, r3, r4, r6, r7, r8, r5, ?_, ?_⟩
    · rw [r8, r6]; show pos.toNat + 0 ≤ _; omega
    · rw [r7]; omega

/-- `Truncate`. -/
theorem truncate_any {B : Nat} (hsp : SplitOK env) (hR : R0 root True dm f) (hle : f.Le B) (n : Nat) (hB : B + n < 2 ^ 63)
    (hr : ∃ a, (dm.truncate env n).1 = .ok a) (hs : ∃ a, (dm.sync env).1 = .ok a) :
    ∃ f2, R0 root True (dm.truncate env n).2 f2 ∧ f2.c = resize f.flush.c n ∧ f2.pend = [] ∧ f2.flush = f2 ∧ f2.Le (B + n) := by
  obtain ⟨dm', e, hR, h1, h2, h3⟩ := sync_any hsp hR hle hs
  have hff := F.flush_flush f
  have hpend := F.flush_pend f
  have hbuf := F.flush_buf f
  generalize f.flush = f at hR h1 h2 h3 hff hpend hbuf ⊢
  unfold DM.truncate at hr ⊢
  rw [e] at hr ⊢
  dsimp only at hr ⊢
  rw [hR.size, hff] at hr ⊢
  dsimp only at hr ⊢
  have fin : ∀ c2 : Bytes, c2 = resize f.c n → ∀ dm2, R0 root True dm2 { f with c := c2 } →
      ∃ f2, R0 root True dm2 f2 ∧ f2.c = resize f.c n ∧ f2.pend = [] ∧ f2.flush = f2 ∧ f2.Le (B + n) := by
    rintro c2 rfl dm2 hR2
    refine ⟨_, hR2, rfl, hpend, ?_, ?_, ?_, ?_⟩
    · unfold F.flush; rw [hbuf]
    · simp only [resize, zeros, List.length_append, List.length_take, List.length_replicate]; omega
    · show f.ws + f.pend.length ≤ _; omega
    · show f.cw ≤ _; omega
  by_cases heq : (n : Int) = f.c.length
  · rw [if_pos heq]
    refine fin f.c ?_ _ hR
    unfold resize zeros; rw [List.take_of_length_le (by omega), show n - f.c.length = 0 by omega]; simp
  · rw [if_neg heq] at hr ⊢
    by_cases hgt : (n : Int) > f.c.length
    · rw [if_pos hgt] at hr ⊢
      rw [Reader.i64_id (by omega) (by omega), show (n : Int) - (f.c.length : Int) = ((n - f.c.length : Nat) : Int) by omega] at hr ⊢
      rcases expand_sim hR (n - f.c.length) (by omega) trivial with hf | ⟨dm2, e2, hR2, _⟩
      · exact (not_failed hf hr).elim
      · rw [e2]
        refine fin _ ?_ _ hR2
        unfold resize; rw [List.take_of_length_le (by omega)]
    · rw [if_neg hgt] at hr ⊢
      have hu : (u64 (n : Int)).toNat = n := by rw [u64_toNat (by omega) (by omega)]; simp
      have hC := cut_spec env dm' (u64 n) hR.sizes hR.cont (by omega) (by omega)
      generalize dagTruncate env dm'.cur (u64 n) dm'.svc = S at hC hr ⊢
      obtain ⟨r, s1⟩ := S
      cases r with
      | error e => obtain ⟨a, ha⟩ := hr; cases ha
      | ok k =>
        dsimp only at hC hr ⊢
        generalize Svc.add env k s1 = S at hC hr ⊢
        obtain ⟨r, s2⟩ := S
        cases r with
        | error e => obtain ⟨a, ha⟩ := hr; cases ha
        | ok u =>
          dsimp only at hC ⊢
          rw [hu] at hC
          refine fin (f.c.take n) ?_ _
            ⟨hC.sizes, hC.cont, hR.ws, hR.cw, hR.buf, ?_, hR.lenw, hR.lencw, fun hg => hC.grow (hR.grow hg), ?_⟩
          · unfold resize zeros; rw [show n - f.c.length = 0 by omega]; simp
          · simp only [List.length_take]; omega
          · intro x hx
            rcases hC.reach x hx with hx | hx
            · exact (hR.store x hx).imp id hC.ext.mem
            · exact .inr hx

theorem Failure.not_eof {e : Err} (hsp : SplitOK env) (h : Failure env (fun _ => True) e) : e ≠ .eof := by
  rintro rfl
  rcases h with (⟨h, _⟩ | ⟨h, _⟩) | ⟨b, h | ⟨h, _⟩⟩
  · cases h
  · cases h
  · exact (hsp b).2 h
  · cases h

/-- Every call. -/
theorem W.step {B : Nat} (hsp : SplitOK env) (h : W root B dm) (op : MOp) (hn : NonNeg op) (hB : B + reachOf op < 2 ^ 63)
    (hf : Fine op (dm.step env op).1) : W root (B + reachOf op) (dm.step env op).2 := by
  have hsync : (∃ a, (dm.sync env).1 = .ok a) ∨ ∃ e dm', dm.sync env = (.error e, dm') ∧ e ≠ .eof := by
    obtain ⟨f, hR, _⟩ := h
    rcases sync_sim hsp hR (.inl trivial) with ⟨e, dm', e1, hf⟩ | ⟨dm', e, _⟩
    · exact .inr ⟨e, dm', e1, hf.not_eof hsp⟩
    · exact .inl ⟨(), by rw [e]⟩
  obtain ⟨hf, hnn⟩ := hf
  cases op with
  | write b =>
    have hf := hf.resolve_right (by simp)
    obtain ⟨a, ha, _⟩ := num_ok hf
    exact W.write hsp h b hB ⟨a, ha⟩
  | writeAt b off =>
    have hf := hf.resolve_right (by simp)
    obtain ⟨a, ha, _⟩ := num_ok hf
    have hn : 0 ≤ off.toInt := hn
    obtain ⟨o, ho⟩ : ∃ o : Nat, off.toInt = o := ⟨off.toInt.toNat, by omega⟩
    simp only [reachOf, ho, Int.natAbs_natCast] at hB ⊢
    simp only [DM.step] at ha ⊢
    rw [ho] at ha ⊢
    exact W.writeAt hsp h b o hB ⟨a, ha⟩
  | read k =>
    simp only [DM.step] at hf ⊢
    have hs := hsync.resolve_right (by
      rintro ⟨e, dm', e1, hne⟩
      simp only [DM.readN, e1] at hf
      rcases hf with hf | hf
      · cases hf
      · exact hne (by simpa using hf.1))
    exact W.read hsp h k hB (hf.imp id (fun h => h.1)) hs
  | seek off whence =>
    have hf := hf.resolve_right (by simp)
    obtain ⟨a, ha, hna⟩ := num_ok hf
    have hs := hsync.resolve_right (by
      rintro ⟨e, dm', e1, hne⟩
      simp only [DM.seek, e1] at ha
      cases ha)
    obtain ⟨f, hR, hle⟩ := h
    obtain ⟨_, f2, _, _, hR2, _, _, _, _, hle2⟩ := seek_any hsp hR hle _ _ hB hs ⟨a, ha, by rw [← hna]; exact hnn⟩
    exact ⟨f2, hR2, hle2⟩
  | truncate s =>
    have hf := hf.resolve_right (by simp)
    obtain ⟨a, ha⟩ := unit_ok hf
    have hn : 0 ≤ s.toInt := hn
    obtain ⟨o, ho⟩ : ∃ o : Nat, s.toInt = o := ⟨s.toInt.toNat, by omega⟩
    simp only [reachOf, ho, Int.natAbs_natCast] at hB ⊢
    simp only [DM.step] at ha ⊢
    rw [ho] at ha ⊢
    have hs := hsync.resolve_right (by
      rintro ⟨e, dm', e1, hne⟩
      simp only [DM.truncate, e1] at ha
      cases ha)
    obtain ⟨f, hR, hle⟩ := h
    obtain ⟨f2, hR2, _, _, _, hle2⟩ := truncate_any hsp hR hle o hB ⟨a, ha⟩ hs
    exact ⟨f2, hR2, hle2⟩
  | sync =>
    have hf := hf.resolve_right (by simp)
    obtain ⟨a, ha⟩ := unit_ok hf
    obtain ⟨dm', f, e, hR, hb, h1, h2, h3, _⟩ := W.sync hsp h ⟨a, ha⟩
    simp only [DM.step, e]
    exact ⟨f, hR, h1, by simp [F.pend, hb]; exact h2, h3⟩
  | getNode =>
    simp only [DM.step, DM.getNode] at hf ⊢
    have hs := hsync.resolve_right (by
      rintro ⟨e, dm', e1, hne⟩
      rw [e1] at hf
      rcases hf with hf | ⟨_, k, hk⟩
      · cases hf
      · cases hk)
    obtain ⟨dm', f, e, hR, hb, h1, h2, h3, _⟩ := W.sync hsp h hs
    rw [e]
    exact ⟨f, hR, h1, by simp [F.pend, hb]; exact h2, h3⟩
  | size => exact h
  | hasChanges => exact h

theorem run_append (env : Env) : ∀ (a b : List MOp) (dm : DM), dm.run env (a ++ b) =
    ((dm.run env a).1 ++ ((dm.run env a).2.run env b).1, ((dm.run env a).2.run env b).2)
  | [], b, dm => by simp [DM.run]
  | op :: a, b, dm => by simp [DM.run, run_append env a b]

/-- Every history. -/
theorem W.run (hsp : SplitOK env) : ∀ (ops : List MOp) {dm : DM} {B : Nat}, W root B dm → (∀ op ∈ ops, NonNeg op) →
    B + (ops.map reachOf).sum < 2 ^ 63 → List.Forall₂ Fine ops (dm.run env ops).1 → W root (B + (ops.map reachOf).sum) (dm.run env ops).2
  | [], dm, B, h, _, _, _ => by simpa [DM.run] using h
  | op :: ops, dm, B, h, hn, hB, hf => by
    simp only [List.map_cons, List.sum_cons] at hB ⊢
    simp only [DM.run] at hf ⊢
    rcases hf with _ | ⟨h1, h2⟩
    have := W.run hsp ops (W.step hsp h op (hn op (by simp)) (by omega) h1) (fun o ho => hn o (by simp [ho])) (by omega) h2
    rw [← Nat.add_assoc]; exact this

/-- A new modifier. -/
theorem W.new {c : Bytes} (hs : SizesTrue root) (hc : content root = some c) (hl : c.length < 2 ^ 63) (hg : Growable defaultLinksPerBlock root) :
    ∃ dm, newDagModifier root = .ok dm ∧ W root c.length dm := by
  obtain ⟨dm, e, ⟨f, hR, hV, _⟩⟩ := new_sim hs hc hl
  refine ⟨dm, e, ⟨f, ⟨hR.base.sizes, hR.base.cont, hR.base.ws, hR.base.cw, hR.base.buf, hR.base.lenc, hR.base.lenw, hR.base.lencw, fun _ => hR.base.grow hg, hR.base.store⟩, ?_, ?_, ?_⟩⟩
  · have := hV.data; rw [← show f.flush.c = c from this, F.flush_len]; split <;> omega
  · rw [hV.wp]; exact Nat.zero_le _
  · rw [hV.pos]; exact Nat.zero_le _

/-- `Size` and then `GetNode`. -/
theorem W.size_node {B : Nat} (hsp : SplitOK env) (h : W root B dm) (hf : List.Forall₂ Fine [.size, .getNode] (dm.run env [.size, .getNode]).1) :
    ∃ n d, (dm.run env [.size, .getNode]).1 = [{ n := (d.length : Int) }, { node := some n }] ∧ content n = some d ∧ SizesTrue n ∧
      ∀ x, Reach n x → Reach root x ∨ x ∈ (dm.run env [.size, .getNode]).2.svc.stored := by
  obtain ⟨f, hR, h1, h2, h3⟩ := h
  simp only [DM.run, DM.step, hR.size] at hf ⊢
  rcases hf with _ | ⟨_, hf⟩
  rcases hf with _ | ⟨hf, _⟩
  unfold DM.getNode at hf ⊢
  rcases sync_sim hsp hR (.inl trivial) with ⟨e, dm', e1, hf'⟩ | ⟨dm', e, hR', _⟩
  · rw [e1] at hf
    rcases hf.1 with h | ⟨_, k, hk⟩
    · cases h
    · cases hk
  · rw [e]
    exact ⟨dm'.cur, f.flush.c, rfl, hR'.cont, hR'.sizes, hR'.store⟩

theorem fine_append (env : Env) : ∀ (a b : List MOp) (dm : DM), List.Forall₂ Fine (a ++ b) (dm.run env (a ++ b)).1 →
    List.Forall₂ Fine a (dm.run env a).1 ∧ List.Forall₂ Fine b ((dm.run env a).2.run env b).1
  | [], b, dm, h => ⟨.nil, h⟩
  | op :: a, b, dm, h => by
    simp only [List.cons_append, DM.run] at h ⊢
    rcases h with _ | ⟨h1, h2⟩
    obtain ⟨h3, h4⟩ := fine_append env a b _ h2
    exact ⟨.cons h1 h3, h4⟩

theorem length_run (env : Env) : ∀ (a : List MOp) (dm : DM), (dm.run env a).1.length = a.length
  | [], _ => rfl
  | _ :: a, _ => by simp [DM.run, length_run env a]

theorem getNode_any {B : Nat} (hsp : SplitOK env) (hR : R0 root True dm f) (hle : f.Le B) (hf : Fine .getNode (dm.step env .getNode).1) :
    ∃ n, (dm.step env .getNode).1 = { node := some n } ∧ content n = some f.flush.c ∧ SizesTrue n ∧
      R0 root True (dm.step env .getNode).2 f.flush ∧ f.flush.Le B := by
  have hs : ∃ a, (dm.sync env).1 = .ok a := by
    simp only [DM.step, DM.getNode] at hf
    generalize dm.sync env = S at hf
    obtain ⟨r, dm'⟩ := S
    cases r with
    | ok a => exact ⟨a, rfl⟩
    | error e =>
      rcases hf.1 with h | ⟨_, k, hk⟩
      · cases h
      · cases hk
  obtain ⟨dm', e, hR', hle'⟩ := sync_any hsp hR hle hs
  simp only [DM.step, DM.getNode, e]
  exact ⟨dm'.cur, rfl, hR'.cont, hR'.sizes, hR', hle'⟩

theorem sync_of_seek {off whence : Int} (h : ∃ a, (dm.seek env off whence).1 = .ok a) : ∃ a, (dm.sync env).1 = .ok a := by
  unfold DM.seek at h
  generalize dm.sync env = S at h
  obtain ⟨r, dm'⟩ := S
  cases r with
  | ok a => exact ⟨a, rfl⟩
  | error e => obtain ⟨a, ha⟩ := h; cases ha

theorem sync_of_truncate {n : Int} (h : ∃ a, (dm.truncate env n).1 = .ok a) : ∃ a, (dm.sync env).1 = .ok a := by
  unfold DM.truncate at h
  generalize dm.sync env = S at h
  obtain ⟨r, dm'⟩ := S
  cases r with
  | ok a => exact ⟨a, rfl⟩
  | error e => obtain ⟨a, ha⟩ := h; cases ha

theorem place_overlay (c b : Bytes) (a : Nat) : overlay (if c.length < a then resize c a else c) a b = overlay c a b := by
  split
  · next h =>
    rw [show resize c a = c ++ zeros (a - c.length) by unfold resize; rw [List.take_of_length_le (by omega)]]
    exact overlay_zeros _ _ _ _ (by omega)
  · rfl

/-- `GetNode`, `Seek`, `Write`, `GetNode`. -/
theorem W.seek_write {B : Nat} (hsp : SplitOK env) (h : W root B dm) (off : Int64) (whence : Int) (b : Bytes) (hB : B + off.toInt.natAbs + b.length < 2 ^ 63)
    (hf : List.Forall₂ Fine [.getNode, .seek off whence, .write b, .getNode] (dm.run env [.getNode, .seek off whence, .write b, .getNode]).1) :
    ∃ n n' c, ∃ a : Nat, (dm.run env [.getNode, .seek off whence, .write b, .getNode]).1 = [{ node := some n }, { n := a }, { n := b.length }, { node := some n' }] ∧
      (whence = 0 → (a : Int) = off.toInt) ∧ content n = some c ∧ content n' = some (overlay c a b) ∧ SizesTrue n' := by
  obtain ⟨f, hR, hle⟩ := h
  simp only [DM.run] at hf ⊢
  rcases hf with _ | ⟨f1, hf⟩
  rcases hf with _ | ⟨f2, hf⟩
  rcases hf with _ | ⟨f3, hf⟩
  rcases hf with _ | ⟨f4, _⟩
  obtain ⟨n, e1, hc1, _, hR1, hle1⟩ := getNode_any hsp hR hle f1
  generalize DM.step env dm .getNode = S1 at *
  obtain ⟨r1, dm1⟩ := S1
  dsimp only at *
  subst e1
  obtain ⟨a0, ha0, hn0⟩ := num_ok (f2.1.resolve_right (by simp))
  have hr : ∃ a, (dm1.seek env off.toInt whence).1 = .ok a := ⟨a0, ha0⟩
  obtain ⟨a, g, e2, ew, hR2, hc2, hws, hcw, hpend, hle2⟩ := seek_any hsp hR1 hle1 off.toInt whence (by omega) (sync_of_seek hr) ⟨a0, ha0, by rw [← hn0]; exact f2.2⟩
  rw [F.flush_flush] at hc2
  have e2' : (dm1.step env (.seek off whence)).1 = { n := a } := by simp only [DM.step, e2, MRes.num]
  have hR2' : R0 root True (dm1.step env (.seek off whence)).2 g := hR2
  generalize dm1.step env (.seek off whence) = S2 at *
  obtain ⟨r2, dm2⟩ := S2
  dsimp only at *
  subst e2'
  obtain ⟨_, q2, q3⟩ := hle2
  obtain ⟨b0, hb0, _⟩ := num_ok (f3.1.resolve_right (by simp))
  rcases write_sim hsp hR2' b (by omega) (by omega) (.inl trivial) with hff | ⟨dm3, e3, hR3, _, _⟩
  · exact (not_failed hff ⟨b0, hb0⟩).elim
  have e3' : dm2.step env (.write b) = ({ n := b.length }, dm3) := by simp only [DM.step, e3, MRes.num]
  rw [e3'] at f4 ⊢
  dsimp only at *
  obtain ⟨e1, e2, e3, e4, e5⟩ := F.write_view g env.wbuf b
  have hle3 : (g.write env.wbuf b).Le (B + off.toInt.natAbs + b.length) := ⟨F.write_le _ _ (by omega) (by omega), by omega, by omega⟩
  obtain ⟨n', e6, hc3, hs3, _, _⟩ := getNode_any hsp hR3.base hle3 f4
  rw [e6]
  refine ⟨n, n', f.flush.c, a, rfl, ew, hc1, ?_, hs3⟩
  rw [hc3, e1, hpend, hws, hc2, List.nil_append, place_overlay]

/-- `GetNode`, `Truncate`, `GetNode`. -/
theorem W.truncate {B : Nat} (hsp : SplitOK env) (h : W root B dm) (s : Int64) (hs : 0 ≤ s.toInt) (hB : B + s.toInt.natAbs < 2 ^ 63)
    (hf : List.Forall₂ Fine [.getNode, .truncate s, .getNode] (dm.run env [.getNode, .truncate s, .getNode]).1) :
    ∃ n n' c, (dm.run env [.getNode, .truncate s, .getNode]).1 = [{ node := some n }, {}, { node := some n' }] ∧
      content n = some c ∧ content n' = some (resize c s.toInt.toNat) ∧ SizesTrue n' := by
  obtain ⟨f, hR, hle⟩ := h
  simp only [DM.run] at hf ⊢
  rcases hf with _ | ⟨f1, hf⟩
  rcases hf with _ | ⟨f2, hf⟩
  rcases hf with _ | ⟨f3, _⟩
  obtain ⟨n, e1, hc1, _, hR1, hle1⟩ := getNode_any hsp hR hle f1
  generalize DM.step env dm .getNode = S1 at *
  obtain ⟨r1, dm1⟩ := S1
  dsimp only at *
  subst e1
  obtain ⟨a0, ha0⟩ := unit_ok (f2.1.resolve_right (by simp))
  obtain ⟨o, ho⟩ : ∃ o : Nat, s.toInt = o := ⟨s.toInt.toNat, by omega⟩
  rw [ho] at ha0
  have hr : ∃ a, (dm1.truncate env o).1 = .ok a := ⟨a0, ha0⟩
  obtain ⟨g, hR2, hc2, _, hfl, hle2⟩ := truncate_any hsp hR1 hle1 o (by omega) hr (sync_of_truncate hr)
  rw [F.flush_flush] at hc2
  have e2' : (dm1.step env (.truncate s)).1 = {} := by simp only [DM.step, ho, ha0, MRes.unit]
  have hR2' : R0 root True (dm1.step env (.truncate s)).2 g := by simp only [DM.step, ho]; exact hR2
  generalize dm1.step env (.truncate s) = S2 at *
  obtain ⟨r2, dm2⟩ := S2
  dsimp only at *
  subst e2'
  obtain ⟨n', e6, hc3, hs3, _, _⟩ := getNode_any hsp hR2' hle2 f3
  rw [e6]
  refine ⟨n, n', f.flush.c, rfl, hc1, ?_, hs3⟩
  rw [hc3, hfl, hc2, ho, Int.toNat_natCast]

/-- `GetNode`: everything is stored. -/
theorem W.stored {B : Nat} (hsp : SplitOK env) (h : W root B dm) (hf : Fine .getNode (dm.step env .getNode).1) :
    ∃ n, (dm.step env .getNode).1 = { node := some n } ∧ ∀ x, Reach n x → Reach root x ∨ x ∈ (dm.step env .getNode).2.svc.stored := by
  obtain ⟨f, hR, hle⟩ := h
  simp only [DM.step, DM.getNode] at hf ⊢
  rcases sync_sim hsp hR (.inl trivial) with ⟨e, dm', e1, _⟩ | ⟨dm', e, hR', _⟩
  · rw [e1] at hf
    rcases hf.1 with h | ⟨_, k, hk⟩
    · cases h
    · cases hk
  · rw [e]; exact ⟨dm'.cur, rfl, hR'.store⟩

/-- `Seek` from the start. -/
theorem W.seek_start {B : Nat} (hsp : SplitOK env) (h : W root B dm) (off : Int64) (hB : B + off.toInt.natAbs < 2 ^ 63)
    (hf : Fine (.seek off 0) (dm.step env (.seek off 0)).1) : (dm.step env (.seek off 0)).1 = { n := off.toInt } := by
  obtain ⟨f, hR, hle⟩ := h
  obtain ⟨a0, ha0, hn0⟩ := num_ok (hf.1.resolve_right (by simp))
  obtain ⟨a, g, e2, ew, _⟩ := seek_any hsp hR hle off.toInt 0 hB (sync_of_seek ⟨a0, ha0⟩) ⟨a0, ha0, by rw [← hn0]; exact hf.2⟩
  simp only [DM.step, e2, MRes.num, ew rfl]

end Unixfs.Mod
