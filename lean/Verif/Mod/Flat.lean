import Verif.Mod.FileLemmas

/-!
# The modifier as a flat file with a write buffer

`F` is the state of a `DagModifier` with the DAG replaced by its content. The lemmas show that a call
that does not fail for a reason outside the modifier acts on `F` as written here.

The definitions in this file belong to proofs; they model no code.
-/

namespace Unixfs.Mod
open Unixfs Unixfs.Import Unixfs.Spec Unixfs.Props

theorem Failure.any {env : Env} {S : Node → Prop} {e : Err} (h : Failure env S e) : Failure env (fun _ => True) e := h.mono (fun _ _ => trivial)
theorem Refused.any {env : Env} {S : Node → Prop} {e : Err} (h : Refused env S e) : Failure env (fun _ => True) e := .inl (h.mono (fun _ _ => trivial))

/-- A call failed, for a reason outside the modifier. -/
def Failed {α : Type} (env : Env) (r : Except Err α × DM) : Prop := ∃ e dm', r = (.error e, dm') ∧ Failure env (fun _ => True) e

/-- Content, start of the buffer, position, buffer, is there a reader. -/
structure F where
  c : Bytes
  ws : Nat := 0
  cw : Nat := 0
  buf : Option Bytes := none
  rd : Bool := false

namespace F

/-- `Sync`. -/
def flush (f : F) : F :=
  match f.buf with
  | none => f
  | some b => { f with c := overlay f.c f.ws b, ws := f.ws + b.length, buf := none, rd := false }

/-- Bytes pending. -/
def pend (f : F) : Bytes := f.buf.getD []

/-- `Write`. -/
def write (f : F) (wbuf : Nat) (b : Bytes) : F :=
  let f1 : F := { f with buf := some (f.pend ++ b), cw := f.cw + b.length, rd := false }
  if (f.pend ++ b).length > wbuf then f1.flush else f1

/-- `expandSparse`. -/
def expand (f : F) (n : Nat) : F := { f with c := f.c ++ zeros n }

/-- `WriteAt`. -/
def writeAt (f : F) (wbuf : Nat) (b : Bytes) (off : Nat) : F :=
  if off = f.ws ∧ f.buf.isSome then
    if b.length ≥ f.pend.length then { f with buf := some [] }.write wbuf b else f.write wbuf b
  else if off ≠ f.cw then
    { (if off > f.flush.c.length then f.expand (off - f.flush.c.length) else f).flush with ws := off }.write wbuf b
  else f.write wbuf b

/-- `WriteAt` writes at `off`. -/
def SafeAt (f : F) (b : Bytes) (off : Nat) : Prop :=
  (off = f.ws ∧ f.buf.isSome → b.length ≥ f.pend.length) ∧ (off = f.cw → off = f.ws + f.pend.length ∨ (off = f.ws ∧ f.buf.isSome))

/-- `Seek` to `t`. -/
def seek (f : F) (t : Nat) : F :=
  { (if t > f.flush.c.length then f.flush.expand (t - f.flush.c.length) else f.flush) with ws := t, cw := t }

/-- `Truncate`. -/
def trunc (f : F) (n : Nat) : F := { f.flush with c := resize f.flush.c n }

end F

/-- The DAG of `dm` holds the content of `f`, and the counters agree. `root` is the node the modifier
was made with, `g` tells whether the DAG is growable. -/
structure R0 (root : Node) (g : Prop) (dm : DM) (f : F) : Prop where
  sizes : SizesTrue dm.cur
  cont : content dm.cur = some f.c
  ws : dm.ws.toNat = f.ws
  cw : dm.cw.toNat = f.cw
  buf : dm.buf = f.buf
  lenc : f.c.length < 2 ^ 63
  lenw : f.ws + f.pend.length < 2 ^ 63
  lencw : f.cw < 2 ^ 63
  grow : g → Growable defaultLinksPerBlock dm.cur
  store : ∀ x, Reach dm.cur x → Reach root x ∨ x ∈ dm.svc.stored

/-- The reader, if any, is at the position of `f`. -/
def Rd (dm : DM) (f : F) : Prop :=
  match dm.read with
  | none => f.rd = false
  | some r => f.rd = true ∧ r.stale = false ∧ r.dr.root = dm.cur ∧ Reader.Inv r.dr f.c f.cw f.cw ∧ Reader.SeekOK r.dr f.c

structure R (root : Node) (g : Prop) (dm : DM) (f : F) : Prop where
  base : R0 root g dm f
  rd : Rd dm f

variable {env : Env} {root : Node} {g : Prop} {dm : DM} {f : F}

theorem ofNat_toNat {n : Nat} (h : n < 2 ^ 64) : (UInt64.ofNat n).toNat = n := by rw [UInt64.toNat_ofNat', Nat.mod_eq_of_lt h]

theorem s64_of {u : UInt64} (h : u.toNat < 2 ^ 63) : s64 u = u.toNat := by
  unfold s64; rw [Reader.i64_id (by omega) (by omega)]

theorem u64_toNat {x : Int} (h0 : 0 ≤ x) (h1 : x < 2 ^ 63) : (u64 x).toNat = x.toNat := by
  unfold u64 UInt64.ofInt
  rw [UInt64.toNat_ofNat', show (2 : Int) ^ 64 = 18446744073709551616 from rfl, Int.emod_eq_of_lt h0 (by omega)]
  exact Nat.mod_eq_of_lt (by omega)

theorem F.flush_pend (f : F) : f.flush.pend = [] := by
  unfold F.flush
  cases h : f.buf with
  | none => simp [F.pend, h]
  | some b => rfl

theorem F.flush_len (f : F) : f.flush.c.length = if f.buf.isSome then max f.c.length (f.ws + f.pend.length) else f.c.length := by
  unfold F.flush
  cases h : f.buf with
  | none => simp
  | some b => simp [F.pend, h, overlay_length]

theorem R0.flush_len (h : R0 root g dm f) : f.flush.c.length < 2 ^ 63 := by
  have h1 := h.lenc; have h2 := h.lenw
  rw [F.flush_len]; split <;> omega

theorem R0.size (h : R0 root g dm f) : dm.size = .ok f.flush.c.length := by
  unfold DM.size
  rw [fileSize_true h.sizes h.cont]
  have h1 := h.lenc; have h2 := h.lenw
  have hs : s64 (UInt64.ofNat f.c.length) = f.c.length := by rw [s64_of (by rw [ofNat_toNat] <;> omega), ofNat_toNat (by omega)]
  rw [h.buf, F.flush_len]
  cases hb : f.buf with
  | none => simp [hs]
  | some b =>
    simp only [F.pend, hb, Option.getD_some] at h2
    have hw : s64 dm.ws = f.ws := by rw [s64_of (by rw [h.ws]; omega), h.ws]
    simp only [hs, hw, F.pend, Option.getD_some, hb, Option.isSome_some, if_true]
    have hi : i64 (↑b.length + ↑f.ws) = ((f.ws + b.length : Nat) : Int) := by rw [Reader.i64_id (by omega) (by omega)]; omega
    rw [hi]
    by_cases hlt : f.c.length < f.ws + b.length
    · rw [if_pos (by omega), Nat.max_eq_right (by omega)]
    · rw [if_neg (by omega), Nat.max_eq_left (by omega)]

/-- `Sync`. -/
theorem sync_sim (hw : SplitOK env) (h : R0 root g dm f) (hg : g ∨ f.buf = none ∨ f.ws + f.pend.length ≤ f.c.length) :
    Failed env (dm.sync env) ∨ ∃ dm', dm.sync env = (.ok (), dm') ∧ R0 root g dm' f.flush ∧ (Rd dm f → Rd dm' f.flush) ∧
      dm'.pfx = dm.pfx ∧ dm'.rawLeaves = dm.rawLeaves ∧ (f.buf.isSome → dm'.read = none) ∧ (f.buf = none → dm' = dm) := by
  cases hb : f.buf with
  | none =>
    refine .inr ⟨dm, ?_, ?_, ?_, rfl, rfl, by simp, fun _ => rfl⟩
    · unfold DM.sync; rw [h.buf, hb]
    · unfold F.flush; rw [hb]; exact h
    · unfold F.flush; rw [hb]; exact id
  | some b =>
    have h1 := h.lenc; have h2 := h.lenw
    have hp : f.pend = b := by simp [F.pend, hb]
    rw [hp] at h2 hg
    have hS := sync_spec env hw dm b (by rw [h.buf, hb]) h.sizes h.cont h1 (by rw [h.ws]; omega)
      (hg.imp h.grow (fun hg => by rw [h.ws]; rcases hg with hg | hg; (rw [hb] at hg; cases hg); exact hg))
    generalize dm.sync env = S at hS ⊢
    obtain ⟨r, dm'⟩ := S
    cases r with
    | error e => exact .inl ⟨e, _, rfl, hS.2.any⟩
    | ok u =>
      obtain ⟨hC, e1, e2, e3, e4⟩ := hS
      rw [h.ws] at hC
      refine .inr ⟨dm', rfl, ?_, ?_, hC.pfx, hC.raw, fun _ => e4, by simp⟩
      · have hf : f.flush = { f with c := overlay f.c f.ws b, ws := f.ws + b.length, buf := none, rd := false } := by unfold F.flush; rw [hb]
        have hl := h.flush_len
        rw [hf] at hl ⊢
        refine ⟨hC.sizes, hC.cont, ?_, by rw [e2]; exact h.cw, e3, hl, ?_, h.lencw, fun hg => hC.grow (h.grow hg), ?_⟩
        · rw [e1]; show (dm.ws + UInt64.ofNat b.length).toNat = f.ws + b.length
          rw [uadd rfl (by rw [h.ws]; omega), h.ws]
        · show f.ws + b.length + 0 < 2 ^ 63; omega
        · intro x hx
          rcases hC.reach x hx with hx | hx
          · exact (h.store x hx).imp id hC.ext.mem
          · exact .inr hx
      · intro _; unfold Rd; rw [e4]; simp [F.flush, hb]

/-- `Write`. -/
theorem write_sim (hw : SplitOK env) (h : R0 root g dm f) (b : Bytes) (h1 : f.ws + f.pend.length + b.length < 2 ^ 63)
    (h2 : f.cw + b.length < 2 ^ 63) (hg : g ∨ f.ws + f.pend.length + b.length ≤ f.c.length) :
    Failed env (dm.write env b) ∨ ∃ dm', dm.write env b = (.ok b.length, dm') ∧ R root g dm' (f.write env.wbuf b) ∧ dm'.pfx = dm.pfx ∧ dm'.rawLeaves = dm.rawLeaves := by
  unfold DM.write F.write
  have hp : dm.buf.getD [] = f.pend := by rw [h.buf]; rfl
  simp only [hp]
  have hR : R0 root g { dm with read := none, buf := some (f.pend ++ b), cw := dm.cw + UInt64.ofNat b.length }
      { f with buf := some (f.pend ++ b), cw := f.cw + b.length, rd := false } := by
    refine ⟨h.sizes, h.cont, h.ws, ?_, rfl, h.lenc, ?_, h2, h.grow, h.store⟩
    · show (dm.cw + UInt64.ofNat b.length).toNat = _
      rw [uadd rfl (by rw [h.cw]; omega), h.cw]
    · show f.ws + (f.pend ++ b).length < 2 ^ 63
      rw [List.length_append]; omega
  by_cases hl : (f.pend ++ b).length > env.wbuf
  · rw [if_pos hl, if_pos hl]
    rcases sync_sim hw hR (hg.imp id (fun hg => .inr (by
      show f.ws + (f.pend ++ b).length ≤ f.c.length
      rw [List.length_append]; omega))) with ⟨e, dm1, e1, hf⟩ | ⟨dm', e, hR', _, e2, e3, e4, _⟩
    · rw [e1]; exact .inl ⟨e, _, rfl, hf⟩
    rw [e]
    refine .inr ⟨dm', rfl, ⟨hR', ?_⟩, e2, e3⟩
    unfold Rd; rw [e4 rfl]; rfl
  · rw [if_neg hl, if_neg hl]
    exact .inr ⟨_, rfl, ⟨hR, rfl⟩, rfl, rfl⟩

/-- `expandSparse`. -/
theorem expand_sim (h : R0 root g dm f) (n : Nat) (hl : f.c.length + n < 2 ^ 63) (hg : g) :
    Failed env (dm.expandSparse env n) ∨ ∃ dm', dm.expandSparse env n = (.ok (), dm') ∧ R0 root g dm' (f.expand n) ∧ dm'.read = dm.touched ∧ dm'.buf = dm.buf ∧
      dm'.pfx = dm.pfx ∧ dm'.rawLeaves = dm.rawLeaves := by
  have hE := expandSparse_spec env dm n h.sizes h.cont (h.grow hg)
  generalize dm.expandSparse env n = S at hE ⊢
  obtain ⟨r, dm'⟩ := S
  cases r with
  | error e => exact .inl ⟨e, _, rfl, hE.2.any⟩
  | ok u =>
    obtain ⟨hC, e1, e2, e3, e4⟩ := hE
    rw [Int.toNat_natCast] at hC
    refine .inr ⟨dm', rfl, ⟨hC.sizes, hC.cont, by rw [e1]; exact h.ws, by rw [e2]; exact h.cw, by rw [e3]; exact h.buf, ?_, h.lenw, h.lencw,
      fun hg => hC.grow (h.grow hg), ?_⟩, e4, e3, hC.pfx, hC.raw⟩
    · simp [F.expand, zeros]; omega
    · intro x hx
      rcases hC.reach x hx with hx | hx
      · exact (h.store x hx).imp id hC.ext.mem
      · exact .inr hx

theorem u64_eq {x : Int} (h0 : 0 ≤ x) (h1 : x < 2 ^ 63) {u : UInt64} : u64 x = u ↔ x.toNat = u.toNat := by
  rw [← u64_toNat h0 h1]; exact ⟨fun h => by rw [h], fun h => UInt64.toNat_inj.mp h⟩

/-- `WriteAt`. -/
theorem writeAt_sim (hw : SplitOK env) (h : R0 root g dm f) (b : Bytes) (off : Nat)
    (h2 : f.cw + b.length < 2 ^ 63) (h3 : off + b.length < 2 ^ 63)
    (hsafe : f.SafeAt b off ∨ (g ∧ f.ws + f.pend.length + b.length < 2 ^ 63)) (hgf : g ∨ f.buf = none ∨ f.ws + f.pend.length ≤ f.c.length) (hg : g ∨ off + b.length ≤ f.c.length) :
    Failed env (dm.writeAt env b off) ∨ ∃ dm', dm.writeAt env b off = (.ok b.length, dm') ∧ R root g dm' (f.writeAt env.wbuf b off) ∧ dm'.pfx = dm.pfx ∧ dm'.rawLeaves = dm.rawLeaves := by
  unfold DM.writeAt F.writeAt
  have hws : s64 dm.ws = f.ws := by have := h.lenw; rw [s64_of (by rw [h.ws]; omega), h.ws]
  have hcw : (u64 (off : Int) ≠ dm.cw) ↔ off ≠ f.cw := by rw [ne_eq, u64_eq (by omega) (by omega), h.cw, Int.toNat_natCast]
  have hp : dm.buf.getD [] = f.pend := by rw [h.buf]; rfl
  simp only [hws, hcw, hp, Nat.cast_inj]
  simp only [h.buf]
  by_cases hA : off = f.ws ∧ f.buf.isSome = true
  · rw [if_pos hA, if_pos hA]
    by_cases hB : b.length ≥ f.pend.length
    · rw [if_pos hB, if_pos hB]
      have hR : R0 root g { dm with buf := some [] } { f with buf := some [] } :=
        ⟨h.sizes, h.cont, h.ws, h.cw, rfl, h.lenc, by have := h.lenw; show f.ws + 0 < _; omega, h.lencw, h.grow, h.store⟩
      exact write_sim hw hR b (by show f.ws + 0 + _ < _; omega) h2 (hg.imp id (fun hg => by show f.ws + 0 + b.length ≤ f.c.length; omega))
    · obtain ⟨hg, h1⟩ := hsafe.resolve_left (fun hs => absurd (hs.1 hA) hB)
      rw [if_neg hB, if_neg hB]; exact write_sim hw h b h1 h2 (.inl hg)
  · rw [if_neg hA, if_neg hA]
    by_cases hC : off ≠ f.cw
    · rw [if_pos hC, if_pos hC, h.size]
      dsimp only
      have hfl := F.flush_len f
      have hflr := h.flush_len
      have hcc : f.c.length ≤ f.flush.c.length := by rw [hfl]; split <;> omega
      -- after `expandSparse`
      obtain ⟨e, dm1, e1, hf⟩ | ⟨dm1, f1, e1, hf1, hR1, e2, e3, hlen, hg1⟩ : Failed env
          (if (off : Int) > (f.flush.c.length : Int) then dm.expandSparse env (i64 (off - f.flush.c.length)) else (.ok (), dm)) ∨ ∃ dm1 f1,
          (if (off : Int) > (f.flush.c.length : Int) then dm.expandSparse env (i64 (off - f.flush.c.length)) else (.ok (), dm)) = (.ok (), dm1) ∧
          f1 = (if off > f.flush.c.length then f.expand (off - f.flush.c.length) else f) ∧ R0 root g dm1 f1 ∧
          dm1.pfx = dm.pfx ∧ dm1.rawLeaves = dm.rawLeaves ∧ f1.flush.c.length < 2 ^ 63 ∧
          (g ∨ f1.buf = none ∨ f1.ws + f1.pend.length ≤ f1.c.length) := by
        by_cases hgt : off > f.flush.c.length
        · have hg' : g := hg.resolve_right (by omega)
          rw [if_pos (by omega), Reader.i64_id (by omega) (by omega), show (off : Int) - f.flush.c.length = ((off - f.flush.c.length : Nat) : Int) by omega]
          refine (expand_sim h (off - f.flush.c.length) (by omega) hg').imp id ?_
          rintro ⟨dm1, e, hR, _, _, e2, e3⟩
          refine ⟨dm1, f.expand (off - f.flush.c.length), ?_, ?_, hR, e2, e3, hR.flush_len, .inl hg'⟩
          · exact e
          · rw [if_pos hgt]
        · exact .inr ⟨dm, f, by rw [if_neg (by omega)], by rw [if_neg hgt], h, rfl, rfl, hflr, hgf⟩
      · rw [e1]; exact .inl ⟨e, _, rfl, hf⟩
      rw [e1, ← hf1]
      dsimp only
      obtain ⟨e, dm2, e4, hf⟩ | ⟨dm2, e4, hR2, _, e5, e6, _⟩ := sync_sim hw hR1 hg1
      · rw [e4]; exact .inl ⟨e, _, rfl, hf⟩
      rw [e4]
      dsimp only
      have hpend := F.flush_pend f1
      have hR3 : R0 root g { dm2 with ws := u64 off } { f1.flush with ws := off } :=
        ⟨hR2.sizes, hR2.cont, by rw [u64_toNat (by omega) (by omega), Int.toNat_natCast], hR2.cw, hR2.buf, hlen,
          by show off + f1.flush.pend.length < _; rw [hpend]; simp; omega, hR2.lencw, hR2.grow, hR2.store⟩
      have hcw1 : f1.flush.cw = f.cw := by
        have : f1.flush.cw = f1.cw := by unfold F.flush; split <;> rfl
        rw [this, hf1]; split <;> rfl
      have hc1 : f.c.length ≤ f1.flush.c.length := by
        have : f1.c.length ≤ f1.flush.c.length := by rw [F.flush_len]; split <;> omega
        refine Nat.le_trans ?_ this
        rw [hf1]; split <;> simp [F.expand]
      refine (write_sim hw hR3 b (by show off + f1.flush.pend.length + _ < _; rw [hpend]; simp; omega)
        (by show f1.flush.cw + _ < _; rw [hcw1]; exact h2)
        (hg.imp id (fun hg => by show off + f1.flush.pend.length + _ ≤ f1.flush.c.length; rw [hpend]; simp; omega))).imp id ?_
      rintro ⟨dm', e7, hR', e8, e9⟩
      exact ⟨dm', e7, hR', by rw [e8]; exact e5.trans e2, by rw [e9]; exact e6.trans e3⟩
    · rw [if_neg hC, if_neg hC]
      obtain hsafe | ⟨hg, h1⟩ := hsafe
      rotate_left
      · exact write_sim hw h b h1 h2 (.inl hg)
      have hoff : off = f.ws + f.pend.length := (hsafe.2 (by omega)).resolve_right hA
      exact write_sim hw h b (by omega) h2 (hg.imp id (fun hg => by omega))

theorem F.flush_cw (f : F) : f.flush.cw = f.cw := by unfold F.flush; split <;> rfl
theorem F.flush_buf (f : F) : f.flush.buf = none := by unfold F.flush; split <;> simp_all
theorem F.flush_flush (f : F) : f.flush.flush = f.flush := by
  have := F.flush_buf f
  generalize f.flush = x at this ⊢
  unfold F.flush; rw [this]

theorem toNat_u64 (x : Int) : ((u64 x).toNat : Int) = x % 2 ^ 64 := by
  unfold u64 UInt64.ofInt
  rw [UInt64.toNat_ofNat']
  omega

theorem u64_add {a : UInt64} {x : Int} (h0 : 0 ≤ a.toNat + x) (h1 : a.toNat + x < 2 ^ 64) : ((a + u64 x).toNat : Int) = a.toNat + x := by
  have := toNat_u64 x
  rw [UInt64.toNat_add]
  omega

theorem u64_sub {a : UInt64} {x : Int} (h0 : 0 ≤ a.toNat - x) (h1 : a.toNat - x < 2 ^ 64) : ((a - u64 x).toNat : Int) = a.toNat - x := by
  have h2 := a.toNat_lt
  have := toNat_u64 x
  have h3 := (u64 x).toNat_lt
  rw [UInt64.toNat_sub]
  omega

/-- One call of a reader at its position. -/
theorem flat_step {net : Net} {dr : DR} {c : Bytes} {p : Nat} (hI : Reader.Inv dr c p p) (hs : Reader.SeekOK dr c) (op : ROp)
    (hg : ∀ w, op ≠ .writeTo w) :
    ((dr.step net op).1.err = some .notFound ∧ ∃ t x, net t x = false) ∨
    ∃ p', FlatStep c p op (dr.step net op).1 p' ∧ Reader.Inv (dr.step net op).2 c p' p' ∧ (dr.step net op).2.root = dr.root ∧
      Reader.SeekOK (dr.step net op).2 c := by
  have hS : (dr.step net op).2.root = dr.root ∧ Reader.SeekOK (dr.step net op).2 c := by
    obtain ⟨_, _, h2, h3, _⟩ := Reader.any_step net hI op (.inr hs)
    exact ⟨h3, by simp only [Reader.SeekOK, h2, h3]; exact hs⟩
  by_cases herr : (dr.step net op).1.err = some .notFound
  · refine .inl ⟨herr, ?_⟩
    by_contra hno
    push Not at hno
    have hwk : WorksFrom net dr.tick := fun u _ x => by simpa using hno u x
    have hn := Reader.works_noSeekFailed net [op] hI (.inr hs) hwk
    obtain ⟨p', _, _, hf⟩ := Reader.cut_step net hI op (.inr hs) (fun w h => absurd h (hg w)) (by
      intro off wh he
      exact hn 0 off wh _ (by simp [he]) (by simp [Reader.run_cons]))
    have hf := hf hwk
    generalize (dr.step net op).1 = r at hf herr
    cases hf with
    | read k hk => simp only at herr; split at herr <;> cases herr
    | read0 e h => rcases h with rfl | ⟨rfl, _⟩ <;> cases herr
    | writeTo w => cases herr
    | seek => cases herr
    | seekNeg => cases herr
    | seekBad => cases herr
  · obtain ⟨p', hc, hI', _⟩ := Reader.cut_step net hI op (.inr hs) (fun w h => absurd h (hg w)) (fun _ _ _ => herr)
    refine .inr ⟨p', ?_, hI', hS⟩
    generalize (dr.step net op).1 = r at hc herr
    cases hc with
    | whole h => exact h
    | read k m h1 h2 => exact absurd rfl herr
    | writeTo w m h1 => exact absurd rfl herr

/-- `Seek`. `t`: where it goes. A reader must not exist if the file is extended or (as it counts from the
end in the other direction) if the offset is relative to the end. -/
theorem seek_sim (hw : SplitOK env) (h : R root g dm f) (off : Int64) (whence : Int) (t : Nat) (ht : t < 2 ^ 63)
    (hwh : (whence = 0 ∧ (t : Int) = off.toInt) ∨ (whence = 1 ∧ (t : Int) = f.cw + off.toInt) ∨
      (whence = 2 ∧ (t : Int) = f.flush.c.length - off.toInt ∧ (f.flush.rd = true → off.toInt = 0)))
    (hgf : g ∨ f.buf = none ∨ f.ws + f.pend.length ≤ f.c.length)
    (hgt : t ≤ f.flush.c.length ∨ (g ∧ f.flush.rd = false)) :
    Failed env (dm.seek env off.toInt whence) ∨ ∃ dm', dm.seek env off.toInt whence = (.ok t, dm') ∧ R root g dm' (f.seek t) ∧ dm'.pfx = dm.pfx ∧ dm'.rawLeaves = dm.rawLeaves := by
  unfold DM.seek F.seek
  obtain ⟨e, dm1, e1, hf⟩ | ⟨dm1, e1, hR1, hrd1, e2, e3, _, _⟩ := sync_sim hw h.base hgf
  · rw [e1]; exact .inl ⟨e, _, rfl, hf⟩
  have hrd1 := hrd1 h.rd
  rw [e1]
  dsimp only
  rw [hR1.size, F.flush_flush]
  dsimp only
  have hl := h.base.flush_len
  have hcw := F.flush_cw f
  have hnew : ∃ new : UInt64, dm1.seekTo f.flush.c.length off.toInt whence = .ok new ∧ new.toNat = t := by
    unfold DM.seekTo
    have hlo := Int64.le_toInt off
    have hhi := Int64.toInt_lt off
    rcases hwh with ⟨rfl, e⟩ | ⟨rfl, e⟩ | ⟨rfl, e, _⟩
    · refine ⟨u64 off.toInt, by simp, ?_⟩
      rw [u64_toNat (by omega) (by omega)]; omega
    · refine ⟨_, if_pos rfl, ?_⟩
      have := u64_add (a := dm1.cw) (x := off.toInt) (by rw [hR1.cw, hcw]; omega) (by rw [hR1.cw, hcw]; omega)
      rw [hR1.cw, hcw] at this; omega
    · refine ⟨u64 f.flush.c.length - u64 off.toInt, by simp, ?_⟩
      have hn : (u64 (f.flush.c.length : Int)).toNat = f.flush.c.length := by rw [u64_toNat (by omega) (by omega)]; simp
      have := u64_sub (a := u64 (f.flush.c.length : Int)) (x := off.toInt) (by rw [hn]; omega) (by rw [hn]; omega)
      rw [hn] at this; omega
  obtain ⟨new, e4, hnew⟩ := hnew
  have hsn : s64 new = t := by rw [s64_of (by omega), hnew]
  rw [e4]
  dsimp only
  rw [hsn]
  unfold DM.seekTail
  by_cases hgt' : t > f.flush.c.length
  · obtain ⟨hg', hnr⟩ := hgt.resolve_left (by omega)
    rw [if_pos hgt', if_pos (by omega), Reader.i64_id (by omega) (by omega), show (t : Int) - f.flush.c.length = ((t - f.flush.c.length : Nat) : Int) by omega]
    obtain ⟨e, dm2, e5, hf⟩ | ⟨dm2, e5, hR2, e6, _, e7, e8⟩ := expand_sim hR1 (t - f.flush.c.length) (by omega) hg'
    · rw [e5]; exact .inl ⟨e, _, rfl, hf⟩
    rw [e5]
    dsimp only
    have hread : dm2.read = none := by
      rw [e6]
      unfold Rd at hrd1
      cases hr : dm1.read with
      | none => simp [DM.touched, hr]
      | some r => rw [hr] at hrd1; rw [hnr] at hrd1; exact absurd hrd1.1 (by simp)
    simp only [hread]
    refine .inr ⟨_, rfl, ⟨⟨hR2.sizes, hR2.cont, hnew, hnew, hR2.buf, hR2.lenc, ?_, ht, hR2.grow, hR2.store⟩, ?_⟩, e7.trans e2, e8.trans e3⟩
    · show t + f.flush.pend.length < _; rw [F.flush_pend]; exact ht
    · exact hnr
  · rw [if_neg hgt', if_neg (by omega)]
    dsimp only
    have hR2 : R0 root g { dm1 with cw := new, ws := new } { f.flush with ws := t, cw := t } :=
      ⟨hR1.sizes, hR1.cont, hnew, hnew, hR1.buf, hR1.lenc, by show t + f.flush.pend.length < _; rw [F.flush_pend]; exact ht, ht, hR1.grow, hR1.store⟩
    unfold Rd at hrd1
    have hcase : dm1.read = none ∨ ∃ r, dm1.read = some r := by cases dm1.read <;> simp
    rcases hcase with hr | ⟨r, hr⟩
    · simp only [hr] at hrd1 hR2 ⊢
      refine .inr ⟨_, rfl, ⟨⟨hR2.sizes, hR2.cont, hR2.ws, hR2.cw, hR2.buf, hR2.lenc, hR2.lenw, hR2.lencw, hR2.grow, hR2.store⟩, ?_⟩, e2, e3⟩
      exact hrd1
    · simp only [hr] at hrd1 hR2 ⊢
      obtain ⟨hrd, hst, hroot, hI, hsk⟩ := hrd1
      have hI' : Reader.Inv { r.dr with tick := dm1.svc.tick } f.flush.c f.flush.cw f.flush.cw := ⟨hI.content, hI.len, hI.stream, hI.off, hI.qp, hI.q63, hI.todo⟩
      have hfs := flat_step (net := env.get) hI' hsk (.seek off whence) (by simp)
      have hT : seekTarget f.flush.c.length f.flush.cw off whence = some (t : Int) := by
        unfold seekTarget
        rcases hwh with ⟨rfl, e⟩ | ⟨rfl, e⟩ | ⟨rfl, e, e0⟩
        · simp [e]
        · have hi : i64 (↑f.cw + off.toInt) = t := by rw [← e, Reader.i64_id (by omega) (by omega)]
          simp [hcw, hi]
        · have := e0 hrd
          have hi : i64 (↑f.flush.c.length + off.toInt) = t := by rw [e, this, Reader.i64_id (by omega) (by omega)]; omega
          simp [hi]
      have hstep : DM.readerSeek env r dm1.svc.tick off.toInt whence = ({ r.dr with tick := dm1.svc.tick } : DR).step env.get (.seek off whence) := by
        unfold DM.readerSeek; rw [hst]; rfl
      rw [hstep]
      generalize DR.step env.get { r.dr with tick := dm1.svc.tick } (.seek off whence) = Q at hfs ⊢
      obtain ⟨res, dr'⟩ := Q
      obtain ⟨herr, hnf⟩ | ⟨p', hfl, hI2, hroot2, hsk2⟩ := hfs
      · dsimp only at herr ⊢
        rw [herr]
        exact .inl ⟨_, _, rfl, .inl (.inl ⟨rfl, by obtain ⟨t, x, hx⟩ := hnf; exact ⟨t, x, trivial, hx⟩⟩)⟩
      have : res.err = none ∧ p' = t := by
        cases hfl with
        | seek _ _ t' ht' => rw [hT] at ht'; simp only [Option.some.injEq] at ht'; exact ⟨rfl, by omega⟩
        | seekNeg _ _ t' ht' hneg => rw [hT] at ht'; simp only [Option.some.injEq] at ht'; omega
        | seekBad _ _ ht' => rw [hT] at ht'; cases ht'
      obtain ⟨herr, rfl⟩ := this
      simp only [herr]
      refine .inr ⟨_, rfl, ⟨⟨hR2.sizes, hR2.cont, hR2.ws, hR2.cw, hR2.buf, hR2.lenc, hR2.lenw, hR2.lencw, hR2.grow, hR2.store⟩, ?_⟩, e2, e3⟩
      exact ⟨hrd, hst, hroot2.trans hroot, hI2, hsk2⟩

/-- `Truncate` on a modifier without a reader (or to the same size). -/
theorem trunc_sim (hw : SplitOK env) (h : R root g dm f) (n : Nat) (hn : n < 2 ^ 63) (hgf : g ∨ f.buf = none ∨ f.ws + f.pend.length ≤ f.c.length)
    (hrd : f.flush.rd = false ∨ n = f.flush.c.length) (hgt : n ≤ f.flush.c.length ∨ g) :
    Failed env (dm.truncate env n) ∨ ∃ dm', dm.truncate env n = (.ok (), dm') ∧ R root g dm' (f.trunc n) ∧ dm'.pfx = dm.pfx ∧ dm'.rawLeaves = dm.rawLeaves := by
  unfold DM.truncate F.trunc
  obtain ⟨e, dm1, e1, hf⟩ | ⟨dm1, e1, hR1, hrd1, e2, e3, _, _⟩ := sync_sim hw h.base hgf
  · rw [e1]; exact .inl ⟨e, _, rfl, hf⟩
  have hrd1 := hrd1 h.rd
  rw [e1]
  dsimp only
  rw [hR1.size, F.flush_flush]
  dsimp only
  have hl := h.base.flush_len
  by_cases heq : n = f.flush.c.length
  · rw [if_pos (by omega)]
    refine .inr ⟨dm1, rfl, ?_, e2, e3⟩
    have : ({ f.flush with c := resize f.flush.c n } : F) = f.flush := by
      rw [heq]; unfold resize; simp [zeros]
    rw [this]; exact ⟨hR1, hrd1⟩
  · rw [if_neg (by omega)]
    have hnr := hrd.resolve_right heq
    have hnone : dm1.read = none := by
      unfold Rd at hrd1
      cases hr : dm1.read with
      | none => rfl
      | some r => rw [hr] at hrd1; rw [hnr] at hrd1; exact absurd hrd1.1 (by simp)
    by_cases hgt' : n > f.flush.c.length
    · rw [if_pos (by omega), Reader.i64_id (by omega) (by omega), show (n : Int) - f.flush.c.length = ((n - f.flush.c.length : Nat) : Int) by omega]
      refine (expand_sim hR1 (n - f.flush.c.length) (by omega) (hgt.resolve_left (by omega))).imp id ?_
      rintro ⟨dm2, e5, hR2, e6, _, e7, e8⟩
      refine ⟨dm2, e5, ⟨?_, ?_⟩, e7.trans e2, e8.trans e3⟩
      · have : resize f.flush.c n = f.flush.c ++ zeros (n - f.flush.c.length) := by unfold resize; rw [List.take_of_length_le (by omega)]
        rw [this]; exact hR2
      · have : dm2.read = none := by rw [e6]; simp [DM.touched, hnone]
        simp only [Rd, this]; exact hnr
    · rw [if_neg (by omega)]
      have hu : (u64 (n : Int)).toNat = n := by rw [u64_toNat (by omega) (by omega)]; simp
      have hC := cut_spec env dm1 (u64 n) hR1.sizes hR1.cont hl (by omega)
      generalize dagTruncate env dm1.cur (u64 n) dm1.svc = S at hC ⊢
      obtain ⟨r, s1⟩ := S
      cases r with
      | error e => exact .inl ⟨e, _, rfl, hC.2.any⟩
      | ok k =>
        dsimp only at hC ⊢
        generalize Svc.add env k s1 = S at hC ⊢
        obtain ⟨r, s2⟩ := S
        cases r with
        | error e => exact .inl ⟨e, _, rfl, hC.2.any⟩
        | ok u =>
          dsimp only at hC ⊢
          rw [hu] at hC
          have hrs : resize f.flush.c n = f.flush.c.take n := by unfold resize zeros; rw [show n - f.flush.c.length = 0 by omega]; simp
          rw [hrs]
          refine .inr ⟨_, rfl, ⟨⟨hC.sizes, hC.cont, hR1.ws, hR1.cw, hR1.buf, ?_, hR1.lenw, hR1.lencw, fun hg => hC.grow (hR1.grow hg), ?_⟩, ?_⟩, e2, e3⟩
          · simp only [List.length_take]; omega
          · intro x hx
            rcases hC.reach x hx with hx | hx
            · exact (hR1.store x hx).imp id hC.ext.mem
            · exact .inr hx
          · simp only [Rd, DM.touched, hnone, Option.map_none]; exact hnr

/-- A truthful node can be opened for reading. -/
theorem opens_of_sizesTrue {n : Node} (h : SizesTrue n) : Opens n n := by
  cases n with
  | raw d b => exact .raw d b
  | other d => exact h.elim
  | proto d ls b =>
    simp only [SizesTrue] at h
    obtain ⟨m, hm, hf, _⟩ := h
    exact .file d ls b m hm hf

/-- No fetch is needed for that. -/
theorem open_any {net : Net} {n : Node} {t : Nat} (h : SizesTrue n) : newDagReader net t n = newDagReader (fun _ _ => true) t n := by
  cases n with
  | raw d b => rfl
  | other d => exact h.elim
  | proto d ls b =>
    simp only [SizesTrue] at h
    obtain ⟨m, hm, hf, _⟩ := h
    have hty := (Reader.isFileMsg_type (Pb.Data.unmarshal_wf hm).typ).mp hf
    simp only [newDagReader, FSNode.fromBytes, hm, hty, if_true]

/-- `readPrep` after `Sync`. -/
theorem readPrep_sim (h : R root g dm f) :
    Failed env (dm.readPrep env) ∨ ∃ r dm', dm.readPrep env = (.ok r, dm') ∧ R0 root g dm' f ∧ dm'.pfx = dm.pfx ∧ dm'.rawLeaves = dm.rawLeaves ∧ dm'.cur = dm.cur ∧
      r.stale = false ∧ r.dr.root = dm.cur ∧ Reader.Inv r.dr f.c f.cw f.cw ∧ Reader.SeekOK r.dr f.c := by
  unfold DM.readPrep
  have hrd := h.rd
  unfold Rd at hrd
  have hcase : dm.read = none ∨ ∃ r, dm.read = some r := by cases dm.read <;> simp
  rcases hcase with hr | ⟨r, hr⟩
  rotate_left
  · simp only [hr] at hrd ⊢
    exact .inr ⟨r, dm, rfl, h.base, rfl, rfl, rfl, hrd.2.1, hrd.2.2.1, hrd.2.2.2.1, hrd.2.2.2.2⟩
  · simp only [hr]
    have hcw : s64 dm.cw = f.cw := by rw [s64_of (by rw [h.base.cw]; exact h.base.lencw), h.base.cw]
    rw [hcw]
    unfold DM.readOpen
    obtain ⟨dr, e1, hroot, hrec, h1, h2, h3, h4⟩ := Reader.open_ok (fun _ _ => true) dm.cur dm.cur dm.svc.tick (opens_of_sizesTrue h.base.sizes) (fun _ _ _ => rfl)
    rw [open_any h.base.sizes, e1]
    dsimp only
    have hc := h.base.cont
    have hsz := h.base.sizes
    have hI := Reader.inv_open (dr := dr) (by rw [hroot]; exact hc) h.base.lenc h1 h2 h3
    have hz := Reader.recordedSize_true hsz hc hrec
    have hlc := h.base.lencw
    have hseek : dr.seek env.get f.cw 0 = dr.seekStart env.get f.cw := by simp [DR.seek]
    rw [hseek]
    obtain ⟨_, hok, g1, g2, g3⟩ := Reader.seekStart_spec env.get hI (by rw [hroot]; exact hsz) f.cw (by omega)
    generalize dr.seekStart env.get f.cw = Q at hok g1 g2 g3 ⊢
    obtain ⟨res, dr'⟩ := Q
    dsimp only at hok g1 g2 g3 ⊢
    rcases hok (by omega) with ⟨e2, e3⟩ | ⟨e2, hx, _⟩
    · have hI2 : Reader.Inv dr' f.c f.cw f.cw := by
        rcases e3 with ⟨hq, e3⟩ | ⟨_, e3⟩
        · have : f.cw = 0 := by omega
          rw [e3, this]; exact hI
        · simpa using e3
      subst e2
      dsimp only
      rw [if_neg (by simp)]
      refine .inr ⟨_, _, rfl, ⟨hsz, hc, h.base.ws, h.base.cw, h.base.buf, h.base.lenc, h.base.lenw, hlc, h.base.grow, h.base.store⟩, rfl, rfl, rfl, rfl, g3.trans hroot, hI2, ?_⟩
      exact ⟨by rw [g3, hroot]; exact hsz, by rw [g2]; exact hz⟩
    · subst e2
      obtain ⟨u, x, _, hx⟩ := hx
      exact .inl ⟨_, _, rfl, .inl (.inl ⟨rfl, u, x, trivial, hx⟩)⟩

/-- `Read`: it delivers what a flat reader at the position delivers. -/
theorem read_sim (hw : SplitOK env) (h : R root g dm f) (k : Nat) (hgf : g ∨ f.buf = none ∨ f.ws + f.pend.length ≤ f.c.length)
    (hk : f.cw + k < 2 ^ 63) :
    (∃ e, (dm.readN env k).1.err = some e ∧ Failure env (fun _ => True) e) ∨
    ∃ got dm' p', dm.readN env k = (got, dm') ∧ FlatStep f.flush.c f.cw (.read k) { bytes := got.bytes, n := got.bytes.length, err := got.err } p' ∧
      p' = f.cw + got.bytes.length ∧ R root g dm' { f.flush with cw := p', rd := true } ∧ dm'.pfx = dm.pfx ∧ dm'.rawLeaves = dm.rawLeaves := by
  unfold DM.readN
  obtain ⟨e, dm1, e1, hf⟩ | ⟨dm1, e1, hR1, hrd1, e2, e3, _, _⟩ := sync_sim hw h.base hgf
  · rw [e1]; exact .inl ⟨e, rfl, hf⟩
  rw [e1]
  dsimp only
  obtain ⟨e, dm2, e4, hf⟩ | ⟨r, dm2, e4, hR2, e5, e6, hcur, hst, hroot, hI, hsk⟩ := readPrep_sim ⟨hR1, hrd1 h.rd⟩
  · rw [e4]; exact .inl ⟨e, rfl, hf⟩
  rw [e4]
  dsimp only
  rw [F.flush_cw] at hI
  have hI' : Reader.Inv { r.dr with tick := dm2.svc.tick } f.flush.c f.cw f.cw := ⟨hI.content, hI.len, hI.stream, hI.off, hI.qp, hI.q63, hI.todo⟩
  have hfs := flat_step (net := env.get) hI' hsk (.read k) (by simp)
  have hstep : DM.readerRead env r dm2.svc.tick k = ({ r.dr with tick := dm2.svc.tick } : DR).step env.get (.read k) := by
    unfold DM.readerRead; rw [hst]; simp [DR.step]
  rw [hstep]
  generalize DR.step env.get { r.dr with tick := dm2.svc.tick } (.read k) = Q at hfs ⊢
  obtain ⟨res, dr'⟩ := Q
  obtain ⟨herr, hnf⟩ | ⟨p', hfl, hI2, hroot2, hsk2⟩ := hfs
  · exact .inl ⟨_, herr, .inl (.inl ⟨rfl, by obtain ⟨t, x, hx⟩ := hnf; exact ⟨t, x, trivial, hx⟩⟩)⟩
  dsimp only at hfl hI2 hroot2 hsk2 ⊢
  have hp : p' = f.cw + res.bytes.length ∧ res = { bytes := res.bytes, n := res.bytes.length, err := res.err } ∧ res.bytes.length ≤ k := by
    cases hfl with
    | read _ _ => exact ⟨rfl, rfl, by simp⟩
    | read0 _ _ => exact ⟨rfl, rfl, by simp⟩
  obtain ⟨hp, hres, hlk⟩ := hp
  refine .inr ⟨_, _, p', rfl, by rw [← hres]; exact hfl, hp, ⟨⟨hR2.sizes, hR2.cont, hR2.ws, ?_, hR2.buf, hR2.lenc, hR2.lenw, ?_, hR2.grow, hR2.store⟩, ?_⟩, e5.trans e2, e6.trans e3⟩
  · show (dm2.cw + UInt64.ofNat res.bytes.length).toNat = p'
    have := hR2.cw
    rw [F.flush_cw] at this
    rw [uadd rfl (by rw [this]; omega), this, hp]
  · show p' < 2 ^ 63; omega
  · exact ⟨rfl, hst, by rw [hroot2]; exact hroot.trans hcur.symm, hI2, hsk2⟩

end Unixfs.Mod
