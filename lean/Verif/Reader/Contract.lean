import Verif.Mod.Panic
import Verif.Reader.Terminate

/-!
# Reading an arbitrary, possibly malformed, file: no panic, and the contract of `io.Reader` (C87)

The definitions in this file belong to proofs; they model no code.
-/

namespace Unixfs.Reader
open Unixfs Unixfs.Spec Unixfs.Mod

theorem writeVisitor_calm (wr : Writer) : CalmV (writeVisitor wr) := by
  intro n s
  unfold writeVisitor
  split
  · exact fun h => by cases h
  · split
    next e he => intro h; cases h; exact readData_calm he
    · split <;> exact fun h => by cases h

theorem writeTo_calm (net : Net) (dr : DR) (wr : Writer) : (dr.writeTo net wr).1.err ≠ some .panic := by
  unfold DR.writeTo
  dsimp only
  generalize (if dr.cur.isSome then TS.writeBuf wr { cur := dr.cur, offset := dr.offset, out := [], calls := 0 }
      else (true, ({ cur := dr.cur, offset := dr.offset, out := [], calls := 0 } : TS))) = q
  obtain ⟨b, s⟩ := q
  cases b with
  | false => exact fun h => by cases h
  | true =>
    dsimp only
    have := iterate_calm net dr.root (writeVisitor_calm wr) (walkFuel dr.root) { path := dr.path, tick := dr.tick, s := s }
    generalize iterate net dr.root (writeVisitor wr) (walkFuel dr.root) { path := dr.path, tick := dr.tick, s := s } = r at this
    obtain ⟨r, w⟩ := r
    cases r with
    | paused => exact fun h => by cases h
    | endOfDag => exact fun h => by cases h
    | err e => exact fun h => this (by cases h; rfl)

theorem step_calm (net : Net) (dr : DR) (op : ROp) : (dr.step net op).1.err ≠ some .panic := by
  cases op with
  | read k => exact read_calm net dr k
  | seek off whence => exact seek_calm net dr off.toInt whence
  | writeTo w => exact writeTo_calm net dr w

theorem run_calm (net : Net) : ∀ (ops : List ROp) (dr : DR), ∀ r ∈ (dr.run net ops).1, r.err ≠ some .panic := by
  intro ops
  induction ops with
  | nil => intro dr r hr; cases hr
  | cons op ops ih =>
    intro dr r hr
    simp only [DR.run] at hr
    rcases List.mem_cons.mp hr with rfl | hr
    · exact step_calm net dr op
    · exact ih _ r hr

/-! ### An invariant of the state a visitor captures -/

variable {σ : Type} {net : Net} {root : Node} {v : Visitor σ} {P Q : σ → Prop}

theorem down_keeps (hv : ∀ n s, P s → P (v n s).2.2) (hq : ∀ n s, P s → (v n s).1 = .pause → Q (v n s).2.2) (w : WS σ) (hP : P w.s) :
    P (down net root v w).2.s ∧ ((down net root v w).1 = .paused → Q (down net root v w).2.s) := by
  have key : ∀ n p t, P (visitChild v n p t w.s).2.s ∧ ((visitChild v n p t w.s).1 = .paused → Q (visitChild v n p t w.s).2.s) := by
    intro n p t
    have h1 := hv n w.s hP
    have h2 := hq n w.s hP
    unfold visitChild
    generalize v n w.s = r at h1 h2
    obtain ⟨r, i, s'⟩ := r
    refine ⟨h1, fun h => h2 ?_⟩
    cases r with
    | cont => cases h
    | pause => rfl
    | fail e => cases h
  unfold down
  split
  · exact key _ _ _
  · split
    · exact ⟨hP, fun h => by cases h⟩
    · split
      · exact key _ _ _
      · exact ⟨hP, fun h => by cases h⟩

theorem iterate_keeps (hv : ∀ n s, P s → P (v n s).2.2) (hq : ∀ n s, P s → (v n s).1 = .pause → Q (v n s).2.2) :
    ∀ (k : Nat) (w : WS σ), P w.s →
      P (iterate net root v k w).2.s ∧ ((iterate net root v k w).1 = .paused → Q (iterate net root v k w).2.s) := by
  intro k
  induction k with
  | zero => intro w hP; exact ⟨hP, fun h => by cases h⟩
  | succ k ih =>
    intro w hP
    have hd := down_keeps (net := net) (root := root) hv hq w hP
    unfold iterate
    generalize down net root v w = r at hd ⊢
    obtain ⟨r, w'⟩ := r
    cases r with
    | ok => exact ih _ hd.1
    | paused => exact ⟨hd.1, fun _ => hd.2 rfl⟩
    | err e => exact ⟨hd.1, fun h => by cases h⟩
    | noChild =>
      dsimp only
      generalize climb w'.path = c
      obtain ⟨b, p⟩ := c
      cases b with
      | true => exact ih _ hd.1
      | false => exact ⟨hd.1, fun h => by cases h⟩

theorem readBuf_keeps {k : Nat} {s : RS} (h : s.out.length + s.space = k) : s.readBuf.out.length + s.readBuf.space = k := by
  simp only [RS.readBuf, List.length_append, List.length_take]
  omega

/-- The buffer is the bytes delivered and the space left. -/
theorem read_contract (net : Net) (dr : DR) (k : Nat) :
    (dr.read net k).1.n = (dr.read net k).1.bytes.length ∧ (dr.read net k).1.bytes.length ≤ k ∧
      ((dr.read net k).1.err = none → (dr.read net k).1.bytes.length = k) := by
  unfold DR.read
  dsimp only
  have h0 : ∃ s, (if dr.cur.isSome then ({ cur := dr.cur, offset := dr.offset, out := [], space := k } : RS).readBuf
      else { cur := dr.cur, offset := dr.offset, out := [], space := k }) = s ∧ s.out.length + s.space = k := by
    refine ⟨_, rfl, ?_⟩
    split
    · exact readBuf_keeps (by simp)
    · simp
  obtain ⟨s, e, hs⟩ := h0
  rw [e]
  split
  next h => exact ⟨rfl, by dsimp only; omega, fun _ => by dsimp only; omega⟩
  · have hI := iterate_keeps (net := net) (root := dr.root) (v := readVisitor) (P := fun s => s.out.length + s.space = k) (Q := fun s => s.out.length = k)
      (fun n s hs => by
        unfold readVisitor
        split
        · exact hs
        · split
          · exact hs
          · exact readBuf_keeps hs)
      (fun n s hs => by
        unfold readVisitor
        split
        · exact fun h => by cases h
        · split
          · exact fun h => by cases h
          next d _ =>
            have := readBuf_keeps (s := { s with cur := some d }) hs
            dsimp only
            split
            next h0 => exact fun _ => by rw [h0] at this; simpa using this
            · exact fun h => by cases h)
      (walkFuel dr.root) { path := dr.path, tick := dr.tick, s := s } hs
    generalize iterate net dr.root readVisitor (walkFuel dr.root) { path := dr.path, tick := dr.tick, s := s } = r at hI
    obtain ⟨r, w⟩ := r
    refine ⟨rfl, by dsimp only at hI ⊢; omega, fun h => ?_⟩
    cases r with
    | paused => exact hI.2 rfl
    | endOfDag => cases h
    | err e => cases h

/-- `WriteTo` counts the bytes it hands over. -/
theorem writeTo_counts (net : Net) (dr : DR) (wr : Writer) : (dr.writeTo net wr).1.n = (dr.writeTo net wr).1.bytes.length := by
  unfold DR.writeTo
  dsimp only
  split <;> rfl

end Unixfs.Reader
