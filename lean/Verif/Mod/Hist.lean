import Verif.Mod.Flat
import Verif.Spec.ModFile

/-!
# Careful histories of calls act as on a file

The definitions in this file belong to proofs; they model no code.
-/

namespace Unixfs.Mod
open Unixfs Unixfs.Import Unixfs.Spec Unixfs.Props

/-- Writing twice, the second time over the first. -/
theorem overlay_over (c p b : Bytes) (off : Nat) (h : p.length ≤ b.length) : overlay (overlay c off p) off b = overlay c off b := by
  apply List.ext_getElem?
  intro i
  simp only [overlay_get, overlay_length]
  by_cases h1 : i < off
  · by_cases h2 : i < c.length
    · simp [h1, h2, show i < max c.length (off + p.length) by omega]
    · by_cases h3 : i < max c.length (off + p.length) <;> simp [h1, h2, h3]
  · by_cases h2 : i < off + b.length
    · simp [h1, h2]
    · simp [h1, h2, show ¬ i < off + p.length by omega]

/-- Two adjacent writes. -/
theorem overlay_append (c p b : Bytes) (off : Nat) : overlay c off (p ++ b) = overlay (overlay c off p) (off + p.length) b := by
  apply List.ext_getElem?
  intro i
  simp only [overlay_get, overlay_length, List.length_append, List.getElem?_append]
  by_cases h1 : i < off
  · simp [h1, show i < off + p.length by omega, show i < max c.length (off + p.length) by omega]
  · by_cases h2 : i < off + p.length
    · simp [h1, h2, show i < off + (p.length + b.length) by omega, show i < max c.length (off + p.length) by omega, show i - off < p.length by omega]
    · by_cases h3 : i < off + p.length + b.length
      · simp [h1, h2, show i < off + (p.length + b.length) by omega, h3, show ¬ i - off < p.length by omega]
        congr 1; omega
      · simp [h1, h2, show ¬ i < off + (p.length + b.length) by omega, h3]

/-- Zeros before a write beyond the end do not matter. -/
theorem overlay_zeros (c b : Bytes) (off n : Nat) (h : c.length + n ≤ off) : overlay (c ++ zeros n) off b = overlay c off b := by
  apply List.ext_getElem?
  intro i
  simp only [overlay_get, List.length_append, List.getElem?_append, zeros, List.length_replicate, List.getElem?_replicate]
  by_cases h1 : i < off
  · by_cases h2 : i < c.length
    · simp [h1, h2, show i < c.length + n by omega]
    · by_cases h3 : i < c.length + n
      · simp [h1, h2, h3, show i - c.length < n by omega]
      · simp [h1, h2, h3]
  · by_cases h2 : i < off + b.length
    · simp [h1, h2]
    · simp [h1, h2, show ¬ i < c.length by omega, show ¬ i - c.length < n by omega]

/-- The same with another write before. -/
theorem overlay_zeros2 (c p b : Bytes) (ws off n : Nat) (h : c.length + n ≤ off) (hp : ws + p.length ≤ off) :
    overlay (overlay (c ++ zeros n) ws p) off b = overlay (overlay c ws p) off b := by
  apply List.ext_getElem?
  intro i
  simp only [overlay_get, overlay_length, List.length_append, List.getElem?_append, zeros, List.length_replicate, List.getElem?_replicate]
  by_cases h1 : i < off
  · simp only [h1, if_true]
    by_cases h2 : i < ws
    · simp only [h2, if_true]
      by_cases h3 : i < c.length
      · simp [h3, show i < c.length + n by omega]
      · by_cases h4 : i < c.length + n
        · simp [h3, h4, show i - c.length < n by omega]
        · simp [h3, h4]
    · by_cases h3 : i < ws + p.length
      · simp [h2, h3]
      · by_cases h4 : i < c.length
        · simp [h2, h3, h4, show i < c.length + n by omega]
        · by_cases h5 : i < c.length + n
          · simp [h2, h3, h4, h5, show i - c.length < n by omega]
          · simp [h2, h3, h4, h5]
  · by_cases h2 : i < off + b.length
    · simp [h1, h2]
    · simp [h1, h2, show ¬ i < ws by omega, show ¬ i < ws + p.length by omega, show ¬ i < c.length by omega, show ¬ i - c.length < n by omega]

theorem F.flush_ws (f : F) : f.flush.ws = f.ws + f.pend.length := by
  unfold F.flush F.pend; cases f.buf <;> simp

theorem F.flush_c (f : F) : f.flush.c = if f.buf.isSome then overlay f.c f.ws f.pend else f.c := by
  unfold F.flush F.pend; cases f.buf <;> simp

/-- The buffered state as it would be flushed: what the caller relies on. -/
structure View (f : F) (x : File) (t : Track) : Prop where
  data : f.flush.c = x.data
  pos : f.cw = x.pos
  wp : f.ws + f.pend.length = t.wp
  dirty : f.buf.isSome → t.dirty = true
  reader : f.rd = t.reader
  norder : f.buf.isSome → f.rd = false

theorem F.flush_rd {f : F} (h : f.buf.isSome → f.rd = false) : f.flush.rd = f.rd := by
  unfold F.flush
  cases hb : f.buf with
  | none => rfl
  | some b => rw [h (by simp [hb])]

/-- `Write`, on what the caller sees. -/
theorem F.write_view (f : F) (w : Nat) (b : Bytes) :
    (f.write w b).flush.c = overlay f.c f.ws (f.pend ++ b) ∧ (f.write w b).cw = f.cw + b.length ∧
    (f.write w b).ws + (f.write w b).pend.length = f.ws + f.pend.length + b.length ∧ (f.write w b).rd = false ∧
    (∀ g : Prop, (g ∨ f.ws + f.pend.length + b.length ≤ f.c.length) → g ∨ (f.write w b).buf = none ∨ (f.write w b).ws + (f.write w b).pend.length ≤ (f.write w b).c.length) := by
  unfold F.write
  dsimp only
  split
  · simp only [F.flush_flush, F.flush_cw, F.flush_pend, F.flush_buf]
    refine ⟨by simp [F.flush], by simp, ?_, by simp [F.flush], ?_⟩
    · rw [F.flush_ws]; simp [F.pend]; omega
    · intros; simp
  · refine ⟨by simp [F.flush], by simp, by simp [F.pend]; omega, rfl, ?_⟩
    intro g h
    refine h.imp id (fun h => .inr ?_)
    simp [F.pend] at h ⊢; omega

/-- `WriteAt`, on what the caller sees. -/
theorem F.writeAt_view (f : F) (w : Nat) (b : Bytes) (off : Nat) (hs : f.SafeAt b off) (g : Prop)
    (hg : g ∨ off + b.length ≤ f.c.length) :
    (f.writeAt w b off).flush.c = overlay f.flush.c off b ∧ (f.writeAt w b off).cw = f.cw + b.length ∧
    (f.writeAt w b off).ws + (f.writeAt w b off).pend.length = off + b.length ∧ (f.writeAt w b off).rd = false ∧
    (g ∨ (f.writeAt w b off).buf = none ∨ (f.writeAt w b off).ws + (f.writeAt w b off).pend.length ≤ (f.writeAt w b off).c.length) := by
  unfold F.writeAt
  split
  next hA =>
    rw [if_pos (hs.1 hA)]
    obtain ⟨e1, e2, e3, e4, e5⟩ := F.write_view { f with buf := some [] } w b
    refine ⟨?_, e2, ?_, e4, e5 g (hg.imp id ?_)⟩
    · rw [e1, F.flush_c, if_pos hA.2, hA.1, overlay_over _ _ _ _ (hs.1 hA)]; simp [F.pend]
    · rw [e3]; simp [F.pend, hA.1]
    · simp [F.pend, ← hA.1]
  next hA =>
    split
    next hC =>
      have hfl := F.flush_len f
      have key : ∀ f1 : F, f1 = (if off > f.flush.c.length then f.expand (off - f.flush.c.length) else f) →
          overlay f1.flush.c off b = overlay f.flush.c off b ∧ f1.flush.cw = f.cw ∧ f.c.length ≤ f1.flush.c.length := by
        intro f1 hf1
        split at hf1
        · next hgt =>
          refine ⟨?_, by rw [hf1, F.flush_cw]; rfl, by rw [hf1, F.flush_len]; simp only [F.expand, List.length_append]; by_cases hx : f.buf.isSome <;> simp [hx]⟩
          rw [hf1, F.flush_c, F.flush_c]
          cases hb : f.buf with
          | none =>
            simp only [F.expand, hb, Option.isSome_none, Bool.false_eq_true, if_false]
            rw [overlay_zeros _ _ _ _ (by rw [hfl] at hgt; simp [hb] at hgt; omega)]
          | some p =>
            have hl : f.flush.c.length = max f.c.length (f.ws + p.length) := by rw [hfl]; simp [hb, F.pend]
            simp only [F.expand, hb, Option.isSome_some, if_true, F.pend, Option.getD_some]
            exact overlay_zeros2 _ _ _ _ _ _ (by rw [overlay_length]; omega) (by omega)
        · rw [hf1]; exact ⟨rfl, F.flush_cw f, by rw [hfl]; split <;> omega⟩
      obtain ⟨k1, k2, k3⟩ := key _ rfl
      generalize (if off > f.flush.c.length then f.expand (off - f.flush.c.length) else f) = f1 at k1 k2 k3 ⊢
      obtain ⟨e1, e2, e3, e4, e5⟩ := F.write_view { f1.flush with ws := off } w b
      have hp : ({ f1.flush with ws := off } : F).pend = [] := F.flush_pend f1
      rw [hp] at e1 e3 e5
      refine ⟨by rw [e1]; exact k1, by rw [e2]; simp [k2], by rw [e3]; simp, e4, e5 g (hg.imp id ?_)⟩
      intro h; simp; omega
    next hC =>
      have hoff : off = f.ws + f.pend.length := (hs.2 (by omega)).resolve_right hA
      obtain ⟨e1, e2, e3, e4, e5⟩ := F.write_view f w b
      refine ⟨?_, e2, by rw [e3, hoff], e4, e5 g (hg.imp id (by omega))⟩
      rw [e1, F.flush_c, hoff]
      cases hb : f.buf with
      | none => simp [F.pend, hb]
      | some p => simp only [F.pend, hb, Option.getD_some, Option.isSome_some, if_true]; exact overlay_append _ _ _ _

theorem Failure.outside {env : Env} {r : MRes} {e : Err} (hr : r.err = some e) (h : Failure env (fun _ => True) e) : OutsideFailure env r := by
  rcases h with (⟨rfl, t, x, _, hx⟩ | ⟨rfl, h⟩) | ⟨b, h | ⟨rfl, h⟩⟩
  · exact .inl ⟨hr, t, x, hx⟩
  · exact .inr (.inl ⟨hr, h⟩)
  · exact .inr (.inr (.inl ⟨b, e, hr, h⟩))
  · exact .inr (.inr (.inr ⟨hr, b, h⟩))

theorem Failed.num {env : Env} {p : Except Err Int × DM} (h : Failed env p) : OutsideFailure env (.num p.1) := by
  obtain ⟨e, dm', rfl, h⟩ := h; exact h.outside rfl

theorem Failed.unit {env : Env} {p : Except Err Unit × DM} (h : Failed env p) : OutsideFailure env (.unit p.1) := by
  obtain ⟨e, dm', rfl, h⟩ := h; exact h.outside rfl

/-- The modifier behaves like the file `x`. -/
structure Sim (root : Node) (g : Prop) (dm : DM) (x : File) (t : Track) : Prop where
  mk ::
  ex : ∃ f, R root g dm f ∧ View f x t ∧ (g ∨ f.buf = none ∨ f.ws + f.pend.length ≤ f.c.length)

theorem target_eq {x : File} {off : Int64} {whence : Int} {p : Nat} (h : x.target off whence = some (p : Int)) :
    (whence = 0 ∧ (p : Int) = off.toInt) ∨ (whence = 1 ∧ (p : Int) = x.pos + off.toInt) ∨ (whence = 2 ∧ (p : Int) = x.data.length + off.toInt) := by
  unfold File.target at h
  split at h
  · simp at h; exact .inl ⟨by assumption, by omega⟩
  · split at h
    · simp at h; exact .inr (.inl ⟨by assumption, by omega⟩)
    · split at h
      · simp at h; exact .inr (.inr ⟨by assumption, by omega⟩)
      · cases h

section
variable {env : Env} {root : Node} {g : Prop} {dm : DM} {x : File} {t : Track}

/-- What has to be shown for one call. -/
def StepOK (env : Env) (root : Node) (g : Prop) (dm : DM) (x : File) (t : Track) (op : MOp) : Prop :=
  OutsideFailure env (dm.step env op).1 ∨
    ∃ x', FileStep x op (dm.step env op).1 x' ∧ Sim root g (dm.step env op).2 x' (t.next x' op)

theorem step_write (hw : SplitOK env) (h : Sim root g dm x t) (b : Bytes) (hc : Careful g x t (.write b)) : StepOK env root g dm x t (.write b) := by
  unfold StepOK
  obtain ⟨f, hR, hV, hgf⟩ := h
  have hlen : f.c.length ≤ f.flush.c.length := by rw [F.flush_len]; split <;> omega
  have hlen2 : g ∨ f.flush.c.length = f.c.length := by
    refine hgf.imp id (fun h => ?_)
    rw [F.flush_len]
    rcases h with h | h
    · simp [h]
    · split <;> omega
  have hfr : f.flush.rd = f.rd := F.flush_rd hV.norder
  have hwp := hV.wp
  have hpos := hV.pos
  obtain ⟨h1, h2, h3⟩ := hc
  refine (write_sim hw hR.base b (by omega) (by omega) (h3.elim .inl (fun h3 => hlen2.imp id (fun h => by rw [← hV.data] at h3; omega)))).imp Failed.num ?_
  rintro ⟨dm', e, hR', _, _⟩
  simp only [DM.step, e]
  obtain ⟨e1, e2, e3, e4, e5⟩ := F.write_view f env.wbuf b
  refine ⟨_, .write x b, ⟨_, hR', ⟨?_, ?_, ?_, fun _ => rfl, e4, fun _ => e4⟩, e5 g (h3.elim .inl (fun h3 => hlen2.imp id (fun h => by rw [← hV.data] at h3; omega)))⟩⟩
  · rw [e1, ← hV.data, F.flush_c]
    cases hb : f.buf with
    | none => simp [F.pend, hb] at hwp ⊢; rw [hwp, h1]
    | some p =>
      simp only [F.pend, hb, Option.getD_some] at hwp
      simp only [F.pend, hb, Option.getD_some, Option.isSome_some, if_true]
      rw [overlay_append, hwp, h1]
  · rw [e2, hpos]
  · rw [e3, hwp, h1]; rfl

theorem step_writeAt (hw : SplitOK env) (h : Sim root g dm x t) (b : Bytes) (off : Int64) (hc : Careful g x t (.writeAt b off)) : StepOK env root g dm x t (.writeAt b off) := by
  unfold StepOK
  obtain ⟨f, hR, hV, hgf⟩ := h
  have hlen : f.c.length ≤ f.flush.c.length := by rw [F.flush_len]; split <;> omega
  have hlen2 : g ∨ f.flush.c.length = f.c.length := by
    refine hgf.imp id (fun h => ?_)
    rw [F.flush_len]
    rcases h with h | h
    · simp [h]
    · split <;> omega
  have hfr : f.flush.rd = f.rd := F.flush_rd hV.norder
  have hwp := hV.wp
  have hpos := hV.pos
  obtain ⟨h0, h1, h2, h3, h4⟩ := hc
  obtain ⟨o, ho⟩ : ∃ o : Nat, off.toInt = o := ⟨off.toInt.toNat, by omega⟩
  simp only [ho, Int.toNat_natCast] at h0 h1 h3 h4
  have hsafe : f.SafeAt b o := by
    constructor
    · rintro ⟨h5, h6⟩
      rcases h1 with h1 | ⟨_, h1 | h1⟩
      · omega
      · rw [hV.dirty h6] at h1; cases h1
      · omega
    · intro h5
      rcases h1 with h1 | ⟨h1, _⟩
      · left; omega
      · omega
  have hg : g ∨ o + b.length ≤ f.c.length := h4.elim .inl (fun h4 => hlen2.imp id (fun h => by rw [← hV.data] at h4; omega))
  have hS := writeAt_sim hw hR.base b o (by omega) h3 (.inl hsafe) hgf hg
  unfold DM.step
  dsimp only
  rw [ho]
  refine hS.imp Failed.num ?_
  rintro ⟨dm', e, hR', _, _⟩
  rw [e]
  obtain ⟨e1, e2, e3, e4, e5⟩ := F.writeAt_view f env.wbuf b o hsafe g hg
  refine ⟨_, .writeAt x b off (by omega), ⟨_, hR', ⟨?_, ?_, ?_, fun _ => rfl, e4, fun _ => e4⟩, e5⟩⟩
  · rw [e1, ← hV.data]; show _ = overlay f.flush.c off.toInt.toNat b; rw [ho, Int.toNat_natCast]
  · rw [e2, hpos]
  · rw [e3]; simp [Track.next, ho]

theorem step_read (hw : SplitOK env) (h : Sim root g dm x t) (k : Nat) (hc : Careful g x t (.read k)) : StepOK env root g dm x t (.read k) := by
  unfold StepOK
  obtain ⟨f, hR, hV, hgf⟩ := h
  have hlen : f.c.length ≤ f.flush.c.length := by rw [F.flush_len]; split <;> omega
  have hlen2 : g ∨ f.flush.c.length = f.c.length := by
    refine hgf.imp id (fun h => ?_)
    rw [F.flush_len]
    rcases h with h | h
    · simp [h]
    · split <;> omega
  have hfr : f.flush.rd = f.rd := F.flush_rd hV.norder
  have hwp := hV.wp
  have hpos := hV.pos
  have hc : x.pos + k < 2 ^ 63 := hc
  have hS := read_sim hw hR k hgf (by omega)
  simp only [DM.step]
  rcases hS with ⟨e, he, hf⟩ | ⟨got, dm', p', e, hfl, hp, hR', _, _⟩
  · exact .inl (hf.outside he)
  · rw [e]
    right
    dsimp only
    rw [hV.data, hpos] at hfl
    have hV' : ∀ x', x' = (⟨x.data, p'⟩ : File) → View { f.flush with cw := p', rd := true } x' (t.next x' (.read k)) := by
      rintro x' rfl
      refine ⟨?_, rfl, ?_, ?_, rfl, ?_⟩
      · have : ({ f.flush with cw := p', rd := true } : F).flush.c = f.flush.c := by rw [F.flush_c]; simp [F.flush_buf]
        rw [this, hV.data]
      · show f.flush.ws + ({ f.flush with cw := p', rd := true } : F).pend.length = _
        have : ({ f.flush with cw := p', rd := true } : F).pend = f.flush.pend := rfl
        rw [this, F.flush_pend, F.flush_ws]; simpa [Track.next] using hwp
      · simp [F.flush_buf]
      · simp [F.flush_buf]
    obtain ⟨bytes, err⟩ := got
    generalize hbl : bytes.length = bl at hfl hp
    cases hfl with
    | read _ hk =>
      exact ⟨_, .read x k hk, ⟨_, hR', hV' _ rfl, .inr (.inl (F.flush_buf f))⟩⟩
    | read0 _ he =>
      exact ⟨_, .read0 x err he, ⟨_, hR', hV' _ rfl, .inr (.inl (F.flush_buf f))⟩⟩

theorem step_seek (hw : SplitOK env) (h : Sim root g dm x t) (off : Int64) (whence : Int) (hc : Careful g x t (.seek off whence)) : StepOK env root g dm x t (.seek off whence) := by
  unfold StepOK
  obtain ⟨f, hR, hV, hgf⟩ := h
  have hlen : f.c.length ≤ f.flush.c.length := by rw [F.flush_len]; split <;> omega
  have hlen2 : g ∨ f.flush.c.length = f.c.length := by
    refine hgf.imp id (fun h => ?_)
    rw [F.flush_len]
    rcases h with h | h
    · simp [h]
    · split <;> omega
  have hfr : f.flush.rd = f.rd := F.flush_rd hV.norder
  have hwp := hV.wp
  have hpos := hV.pos
  obtain ⟨h2, p, hp, hp63, hr⟩ := hc
  rw [← hV.reader, ← hfr, ← hV.data] at hr
  have hS := seek_sim hw hR off whence p hp63 (by
    rcases target_eq hp with h | ⟨h, h'⟩ | ⟨h, h'⟩
    · exact .inl h
    · exact .inr (.inl ⟨h, by omega⟩)
    · have := h2 h
      exact .inr (.inr ⟨h, by rw [hV.data]; omega, fun _ => this⟩)) hgf hr
  simp only [DM.step]
  refine hS.imp Failed.num ?_
  rintro ⟨dm', e, hR', _, _⟩
  rw [e]
  refine ⟨_, .seek x off whence p hp, ⟨_, hR', ?_, ?_⟩⟩
  · unfold F.seek
    have hb := F.flush_buf f
    have hpd := F.flush_pend f
    refine ⟨?_, rfl, ?_, ?_, ?_, ?_⟩
    · rw [← hV.data]
      by_cases hgt : p > f.flush.c.length
      · rw [F.flush_c]; simp [hgt, F.expand, hb, resize, List.take_of_length_le (Nat.le_of_lt hgt)]
      · rw [F.flush_c]; simp [hgt, hb]
    · by_cases hgt : p > f.flush.c.length <;> simp [hgt, F.expand, F.pend, hb, Track.next]
    · by_cases hgt : p > f.flush.c.length <;> simp [hgt, F.expand, hb]
    · have : (if p > List.length f.flush.c then f.flush.expand (p - List.length f.flush.c) else f.flush).rd = f.flush.rd := by split <;> rfl
      show F.rd (if p > List.length f.flush.c then f.flush.expand (p - List.length f.flush.c) else f.flush) = _
      rw [this, hfr, hV.reader]; rfl
    · by_cases hgt : p > f.flush.c.length <;> simp [hgt, F.expand, hb]
  · refine .inr (.inl ?_)
    unfold F.seek
    have hb := F.flush_buf f
    by_cases hgt : p > f.flush.c.length <;> simp [hgt, F.expand, hb]

theorem step_truncate (hw : SplitOK env) (h : Sim root g dm x t) (s : Int64) (hc : Careful g x t (.truncate s)) : StepOK env root g dm x t (.truncate s) := by
  unfold StepOK
  obtain ⟨f, hR, hV, hgf⟩ := h
  have hlen : f.c.length ≤ f.flush.c.length := by rw [F.flush_len]; split <;> omega
  have hlen2 : g ∨ f.flush.c.length = f.c.length := by
    refine hgf.imp id (fun h => ?_)
    rw [F.flush_len]
    rcases h with h | h
    · simp [h]
    · split <;> omega
  have hfr : f.flush.rd = f.rd := F.flush_rd hV.norder
  have hwp := hV.wp
  have hpos := hV.pos
  obtain ⟨h0, h1, h2⟩ := hc
  obtain ⟨n, hn⟩ : ∃ n : Nat, s.toInt = n := ⟨s.toInt.toNat, by omega⟩
  rw [hn] at h1 h2
  rw [← hV.data] at h1 h2
  rw [← hV.reader, ← hfr] at h1
  have hlt := Int64.toInt_lt s
  have hS := trunc_sim hw hR n (by omega) hgf (h1.imp id (by omega)) (h2.imp (by omega) id)
  simp only [DM.step, hn]
  refine hS.imp Failed.unit ?_
  rintro ⟨dm', e, hR', _, _⟩
  rw [e]
  have hb := F.flush_buf f
  refine ⟨_, .truncate x s h0, ⟨_, hR', ?_, .inr (.inl hb)⟩⟩
  unfold F.trunc
  refine ⟨?_, ?_, ?_, ?_, ?_, ?_⟩
  · rw [F.flush_c]; simp [hb, hn, hV.data]
  · simp [F.flush_cw, hpos]
  · have := F.flush_ws f
    simp [F.pend, hb, Track.next, this]; simpa [F.pend] using hwp
  · simp [hb]
  · simp [hfr, hV.reader, Track.next]
  · simp [hb]

theorem step_sync (hw : SplitOK env) (h : Sim root g dm x t)  (hc : Careful g x t .sync) : StepOK env root g dm x t .sync := by
  unfold StepOK
  obtain ⟨f, hR, hV, hgf⟩ := h
  have hlen : f.c.length ≤ f.flush.c.length := by rw [F.flush_len]; split <;> omega
  have hlen2 : g ∨ f.flush.c.length = f.c.length := by
    refine hgf.imp id (fun h => ?_)
    rw [F.flush_len]
    rcases h with h | h
    · simp [h]
    · split <;> omega
  have hfr : f.flush.rd = f.rd := F.flush_rd hV.norder
  have hwp := hV.wp
  have hpos := hV.pos
  simp only [DM.step]
  refine (sync_sim hw hR.base hgf).imp Failed.unit ?_
  rintro ⟨dm', e, hR', hrd, _⟩
  rw [e]
  refine ⟨_, .sync x, ⟨_, ⟨hR', hrd hR.rd⟩, ?_, .inr (.inl (F.flush_buf f))⟩⟩
  refine ⟨by rw [F.flush_flush, hV.data], by rw [F.flush_cw, hpos], ?_, by simp [F.flush_buf], by rw [hfr, hV.reader]; rfl, by simp [F.flush_buf]⟩
  rw [F.flush_pend, F.flush_ws]; simpa [Track.next] using hwp

theorem step_getNode (hw : SplitOK env) (h : Sim root g dm x t)  (hc : Careful g x t .getNode) : StepOK env root g dm x t .getNode := by
  unfold StepOK
  obtain ⟨f, hR, hV, hgf⟩ := h
  have hlen : f.c.length ≤ f.flush.c.length := by rw [F.flush_len]; split <;> omega
  have hlen2 : g ∨ f.flush.c.length = f.c.length := by
    refine hgf.imp id (fun h => ?_)
    rw [F.flush_len]
    rcases h with h | h
    · simp [h]
    · split <;> omega
  have hfr : f.flush.rd = f.rd := F.flush_rd hV.norder
  have hwp := hV.wp
  have hpos := hV.pos
  simp only [DM.step, DM.getNode]
  rcases sync_sim hw hR.base hgf with ⟨e, dm', e1, hf⟩ | ⟨dm', e, hR', hrd, _⟩
  · rw [e1]; exact .inl (hf.outside rfl)
  · rw [e]
    refine .inr ⟨_, .getNode x _ (by rw [← hV.data]; exact hR'.cont) hR'.sizes, ⟨_, ⟨hR', hrd hR.rd⟩, ?_, .inr (.inl (F.flush_buf f))⟩⟩
    refine ⟨by rw [F.flush_flush, hV.data], by rw [F.flush_cw, hpos], ?_, by simp [F.flush_buf], by rw [hfr, hV.reader]; rfl, by simp [F.flush_buf]⟩
    rw [F.flush_pend, F.flush_ws]; simpa [Track.next] using hwp

theorem step_size (hw : SplitOK env) (h : Sim root g dm x t)  (hc : Careful g x t .size) : StepOK env root g dm x t .size := by
  unfold StepOK
  obtain ⟨f, hR, hV, hgf⟩ := h
  have hlen : f.c.length ≤ f.flush.c.length := by rw [F.flush_len]; split <;> omega
  have hlen2 : g ∨ f.flush.c.length = f.c.length := by
    refine hgf.imp id (fun h => ?_)
    rw [F.flush_len]
    rcases h with h | h
    · simp [h]
    · split <;> omega
  have hfr : f.flush.rd = f.rd := F.flush_rd hV.norder
  have hwp := hV.wp
  have hpos := hV.pos
  simp only [DM.step, hR.base.size]
  exact .inr ⟨_, by rw [hV.data]; exact .size x, ⟨f, hR, hV, hgf⟩⟩

theorem step_hasChanges (hw : SplitOK env) (h : Sim root g dm x t)  (hc : Careful g x t .hasChanges) : StepOK env root g dm x t .hasChanges := by
  unfold StepOK
  obtain ⟨f, hR, hV, hgf⟩ := h
  have hlen : f.c.length ≤ f.flush.c.length := by rw [F.flush_len]; split <;> omega
  have hlen2 : g ∨ f.flush.c.length = f.c.length := by
    refine hgf.imp id (fun h => ?_)
    rw [F.flush_len]
    rcases h with h | h
    · simp [h]
    · split <;> omega
  have hfr : f.flush.rd = f.rd := F.flush_rd hV.norder
  have hwp := hV.wp
  have hpos := hV.pos
  exact .inr ⟨_, .hasChanges x _, ⟨f, hR, hV, hgf⟩⟩

/-- One careful call. -/
theorem step_sim (hw : SplitOK env) (h : Sim root g dm x t) (op : MOp) (hc : Careful g x t op) : StepOK env root g dm x t op := by
  cases op with
  | write b => exact step_write hw h b hc
  | writeAt b off => exact step_writeAt hw h b off hc
  | read k => exact step_read hw h k hc
  | seek off whence => exact step_seek hw h off whence hc
  | truncate s => exact step_truncate hw h s hc
  | sync => exact step_sync hw h  hc
  | getNode => exact step_getNode hw h  hc
  | size => exact step_size hw h  hc
  | hasChanges => exact step_hasChanges hw h  hc

end

/-- A careful history. -/
theorem run_sim {env : Env} {root : Node} {g : Prop} (hw : SplitOK env) : ∀ (ops : List MOp) {dm : DM} {x : File} {t : Track}, Sim root g dm x t →
    CarefulRun g x t ops →
    ∃ e, FileRun (OutsideFailure env) x ops (dm.run env ops).1 e ∧ ∀ x', e = some x' → ∃ t', Sim root g (dm.run env ops).2 x' t' := by
  intro ops
  induction ops with
  | nil => intro dm x t h _; exact ⟨_, .nil x, fun x' hx => by cases hx; exact ⟨t, h⟩⟩
  | cons op ops ih =>
    intro dm x t h hc
    obtain ⟨hc1, hc2⟩ := hc
    simp only [DM.run]
    rcases step_sim hw h op hc1 with hf | ⟨x', hx, hS⟩
    · exact ⟨none, .fail hf, by simp⟩
    · rw [hx.next_eq] at hS hx
      obtain ⟨e, he, hs⟩ := ih hS hc2
      exact ⟨e, .cons hx he, hs⟩

/-- A new modifier. -/
theorem new_sim {root : Node} {c : Bytes} (hs : SizesTrue root) (hc : content root = some c) (hl : c.length < 2 ^ 63) :
    ∃ dm, newDagModifier root = .ok dm ∧ Sim root (Growable defaultLinksPerBlock root) dm ⟨c, 0⟩ {} := by
  have key : ∀ dm : DM, dm.cur = root → dm.ws = 0 → dm.cw = 0 → dm.buf = none → dm.read = none →
      Sim root (Growable defaultLinksPerBlock root) dm ⟨c, 0⟩ {} := by
    intro dm h1 h2 h3 h4 h5
    refine ⟨{ c := c }, ⟨⟨by rw [h1]; exact hs, by rw [h1]; exact hc, by rw [h2]; rfl, by rw [h3]; rfl, h4, hl, by simp [F.pend], by simp,
      by rw [h1]; exact id, by rw [h1]; exact fun x hx => .inl hx⟩, by simp [Rd, h5]⟩, ⟨rfl, rfl, rfl, by simp, rfl, by simp⟩, .inr (.inl rfl)⟩
  cases root with
  | raw d b => exact ⟨_, rfl, key _ rfl rfl rfl rfl rfl⟩
  | proto d ls b => exact ⟨_, rfl, key _ rfl rfl rfl rfl rfl⟩
  | other d => exact hs.elim

end Unixfs.Mod
