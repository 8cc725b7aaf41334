import Verif.Spec.Unixfile
import Verif.Dir.Hist
import Mathlib.Data.List.Basic

/-!
# Lemmas on the directory iterator

The definitions in this file belong to proofs; they model no code.
-/

namespace Unixfs.File
open Unixfs.Hamt hiding exec execAll results NoEmptyName lastWrite Cfg
open Unixfs.Dir

variable {net : Net} {ls : List Link} {fin : Option Err}

/-- The link that `Next` is working on. -/
def Cons.held : Cons → List Link
  | .got l => [l]
  | _ => []

/-- What `ForEachLink` has returned. -/
def Result (ls : List Link) (fin : Option Err) (g : It) (e : Option Err) : Prop :=
  (g.todo = [] ∧ e = fin) ∨ (e = some .cancelled ∧ g.cancelled = true)

/-- The producer and the channels. -/
def ProdInv (ls : List Link) (fin : Option Err) (g : It) : Prop :=
  match g.prod with
  | .each => g.errBuf = none ∧ g.errClosed = false ∧ g.fileClosed = false ∧ g.errNil = false
  | .ret e => Result ls fin g e ∧ g.errBuf = none ∧ g.errClosed = false ∧ g.fileClosed = false ∧ g.errNil = false
  | p => ∃ e, Result ls fin g e ∧ (match p with | .sent => g.errClosed = false | _ => g.errClosed = true) ∧ (match p with | .done => g.fileClosed = true | _ => g.fileClosed = false) ∧
      ((g.errBuf = some e ∧ g.errNil = false) ∨ (g.errBuf = none ∧ g.errNil = true ∧ ((∃ x, e = some x) → g.err ≠ none)))

/-- The invariant. -/
structure IInv (net : Net) (ls : List Link) (fin : Option Err) (g : It) : Prop where
  same : g.fin = fin
  cover : ∃ pre lost, pre ++ lost ++ g.cons.held ++ g.buf ++ g.todo = ls ∧ List.Forall₂ (Opened net) pre g.delivered ∧ (g.err = none → lost = [])
  prod : ProdInv ls fin g
  files : g.filesNil = true → g.fileClosed = true ∧ g.buf = []
  idle : g.err ≠ none → g.cons = .idle
  cause : ∀ e, g.err = some e → Cause net ls fin g.cancelled e
  got : ∀ l, g.cons = .got l → g.filesNil = false
  /-- Once `Next` has returned `false`, it always does. -/
  over : ∀ e, .no e ∈ g.log → g.err = e ∧ (e = none → g.filesNil = true ∧ g.errNil = true)
  sticky : ∀ a e b, g.log = a ++ .no e :: b → ∀ x ∈ a, x = .no e

theorem start_inv : IInv net ls fin (It.start ls fin) where
  same := rfl
  cover := ⟨[], [], by simp [It.start, Cons.held], by simp [It.delivered, It.start], fun _ => rfl⟩
  prod := ⟨rfl, rfl, rfl, rfl⟩
  files := by simp [It.start]
  idle := by simp [It.start]
  cause := by simp [It.start]
  got := by simp [It.start]
  over := by simp [It.start]
  sticky := by intro a e b h; simp [It.start] at h

/-- The log and the state of the client are the same, and at most more is cancelled. -/
theorem prod_step {g g' : It} (h : IInv net ls fin g) (h1 : g'.fin = g.fin) (h2 : g'.buf ++ g'.todo = g.buf ++ g.todo) (h3 : g'.cons = g.cons) (h4 : g'.log = g.log)
    (h5 : g'.err = g.err) (h6 : g'.filesNil = g.filesNil) (h7 : g'.errNil = g.errNil) (h8 : g.cancelled = true → g'.cancelled = true)
    (h9 : ProdInv ls fin g') (h10 : g.filesNil = true → g'.fileClosed = true ∧ g'.buf = []) : IInv net ls fin g' where
  same := by rw [h1, h.same]
  cover := by
    obtain ⟨pre, lost, p1, p2, p3⟩ := h.cover
    refine ⟨pre, lost, ?_, ?_, ?_⟩
    · rw [List.append_assoc, h2, h3, ← List.append_assoc]; exact p1
    · rw [It.delivered, h4]; exact p2
    · rw [h5]; exact p3
  prod := h9
  files := by rw [h6]; exact h10
  idle := by rw [h5, h3]; exact h.idle
  cause := by
    intro e he
    rw [h5] at he
    rcases h.cause e he with ⟨a, b⟩ | hc | hc
    · exact .inl ⟨a, h8 b⟩
    · exact .inr (.inl hc)
    · exact .inr (.inr hc)
  got := by rw [h3, h6]; exact h.got
  over := by rw [h4, h5, h6, h7]; exact h.over
  sticky := by rw [h4]; exact h.sticky

/-- A `false` result is logged. -/
theorem no_over {g : It} {e : Option Err} (ho : ∀ e', .no e' ∈ g.log → e' = e) (hs : ∀ a e b, g.log = a ++ .no e :: b → ∀ x ∈ a, x = .no e) :
    ∀ a e' b, .no e :: g.log = a ++ .no e' :: b → ∀ x ∈ a, x = .no e' := by
  intro a e' b h x hx
  cases a with
  | nil => cases hx
  | cons y a =>
    simp only [List.cons_append, List.cons.injEq] at h
    obtain ⟨rfl, h⟩ := h
    have : e' = e := ho e' (by rw [h]; simp)
    subst this
    rcases List.mem_cons.mp hx with rfl | hx
    · rfl
    · exact hs a e' b h x hx

theorem own_inv {g g' : It} (h : IInv net ls fin g) (hs : It.Own net g g') : IInv net ls fin g' := by
  have hpr := h.prod
  have hnolog : g.cons = .loop ∨ (∃ l, g.cons = .got l) → ∀ e, .no e ∈ g.log → e = none ∧ g.filesNil = true ∧ g.errNil = true ∧ g.cons = .loop := by
    intro hc e he
    obtain ⟨h1, h2⟩ := h.over e he
    have hne : g.err = none := by
      by_contra hne
      have := h.idle hne
      rcases hc with hc | ⟨l, hc⟩ <;> rw [this] at hc <;> cases hc
    have he0 : e = none := by rw [← h1, hne]
    obtain ⟨h3, h4⟩ := h2 he0
    refine ⟨he0, h3, h4, ?_⟩
    rcases hc with hc | ⟨l, hc⟩
    · exact hc
    · have := h.got l hc; rw [h3] at this; cases this
  cases hs with
  | prodCancel hp ht hc =>
    rw [ProdInv, hp] at hpr
    refine prod_step h rfl rfl rfl rfl rfl rfl rfl id ?_ h.files
    exact ⟨.inr ⟨rfl, hc⟩, hpr.1, hpr.2.1, hpr.2.2.1, hpr.2.2.2⟩
  | send hp ht hb =>
    rw [ProdInv, hp] at hpr
    refine prod_step h rfl (by simp [ht]) rfl rfl rfl rfl rfl id ?_ ?_
    · simp only [ProdInv, hp]; exact hpr
    · intro hf; have := (h.files hf).1; rw [hpr.2.2.1] at this; cases this
  | prodRet hp ht =>
    rw [ProdInv, hp] at hpr
    refine prod_step h rfl rfl rfl rfl rfl rfl rfl id ?_ h.files
    exact ⟨.inl ⟨ht, h.same⟩, hpr.1, hpr.2.1, hpr.2.2.1, hpr.2.2.2⟩
  | sendErr hp hb =>
    rw [ProdInv, hp] at hpr
    obtain ⟨a1, a2, a3, a4, a5⟩ := hpr
    exact prod_step h rfl rfl rfl rfl rfl rfl rfl id ⟨_, a1, a3, a4, .inl ⟨rfl, a5⟩⟩ h.files
  | closeErr hp =>
    rw [ProdInv, hp] at hpr
    obtain ⟨e, a1, a2, a3, a4⟩ := hpr
    exact prod_step h rfl rfl rfl rfl rfl rfl rfl id ⟨_, a1, rfl, a3, a4⟩ h.files
  | closeFiles hp =>
    rw [ProdInv, hp] at hpr
    obtain ⟨e, a1, a2, a3, a4⟩ := hpr
    exact prod_step h rfl rfl rfl rfl rfl rfl rfl id ⟨_, a1, a2, rfl, a4⟩ (fun hf => ⟨rfl, (h.files hf).2⟩)
  | bothNil hc h1 h2 =>
    have hne : g.err = none := by by_contra hne; rw [h.idle hne] at hc; cases hc
    obtain ⟨pre, lost, p1, p2, p3⟩ := h.cover
    exact {
      same := h.same
      cover := ⟨pre, lost, by simpa [Cons.held, hc] using p1, by simpa [It.delivered] using p2, p3⟩
      prod := hpr
      files := h.files
      idle := fun _ => rfl
      cause := h.cause
      got := by simp
      over := by
        intro e he
        rcases List.mem_cons.mp he with he | he
        · cases he; exact ⟨rfl, fun _ => ⟨h1, h2⟩⟩
        · exact h.over e he
      sticky := no_over (fun e' he => (h.over e' he).1.symm) h.sticky }
  | recv hc h1 hb =>
    rename_i l buf
    have hno : ∀ e, .no e ∉ g.log := fun e he => by have := (hnolog (.inl hc) e he).2.1; rw [h1] at this; cases this
    obtain ⟨pre, lost, p1, p2, p3⟩ := h.cover
    have hne : g.err = none := by by_contra hne; rw [h.idle hne] at hc; cases hc
    exact {
      same := h.same
      cover := ⟨pre, lost, by simpa [Cons.held, hc, hb] using p1, p2, p3⟩
      prod := hpr
      files := by intro hf; rw [h1] at hf; cases hf
      idle := fun h => absurd hne h
      cause := h.cause
      got := fun _ _ => h1
      over := fun e he => absurd he (hno e)
      sticky := h.sticky }
  | recvClosed hc h1 hb hf =>
    have hno : ∀ e, .no e ∉ g.log := fun e he => by have := (hnolog (.inl hc) e he).2.1; rw [h1] at this; cases this
    obtain ⟨pre, lost, p1, p2, p3⟩ := h.cover
    exact {
      same := h.same
      cover := ⟨pre, lost, p1, p2, p3⟩
      prod := hpr
      files := fun _ => ⟨hf, hb⟩
      idle := h.idle
      cause := h.cause
      got := by intro l hl; rw [hc] at hl; cases hl
      over := fun e he => absurd he (hno e)
      sticky := h.sticky }
  | recvNil hc h2 hb =>
    have hno : ∀ e, .no e ∉ g.log := fun e he => by have := (hnolog (.inl hc) e he).2.2.1; rw [h2] at this; cases this
    have hne : g.err = none := by by_contra hne; rw [h.idle hne] at hc; cases hc
    obtain ⟨pre, lost, p1, p2, p3⟩ := h.cover
    exact {
      same := h.same
      cover := ⟨pre, lost, p1, p2, fun _ => p3 hne⟩
      prod := by
        unfold ProdInv at hpr ⊢
        dsimp only
        split at hpr
        · rw [hpr.1] at hb; cases hb
        · rw [hpr.2.1] at hb; cases hb
        · obtain ⟨e, a1, a2, a3, a4⟩ := hpr
          refine ⟨e, a1, a2, a3, .inr ⟨rfl, rfl, ?_⟩⟩
          rcases a4 with ⟨a4, _⟩ | ⟨a4, _⟩
          · rw [hb] at a4; cases a4; rintro ⟨x, hx⟩; cases hx
          · rw [hb] at a4; cases a4
      files := h.files
      idle := by simp
      cause := by simp
      got := by intro l hl; rw [hc] at hl; cases hl
      over := fun e he => absurd he (hno e)
      sticky := h.sticky }
  | recvErr hc h2 hb =>
    rename_i x
    have hno : ∀ e, .no e ∉ g.log := fun e he => by have := (hnolog (.inl hc) e he).2.2.1; rw [h2] at this; cases this
    obtain ⟨pre, lost, p1, p2, p3⟩ := h.cover
    have hne : g.err = none := by by_contra hne; rw [h.idle hne] at hc; cases hc
    have hres : Result ls fin g (some x) ∧ ProdInv ls fin { g with errNil := true, errBuf := none, err := some x, cons := .idle, log := .no (some x) :: g.log } := by
      unfold ProdInv at hpr ⊢
      dsimp only
      split at hpr
      · rw [hpr.1] at hb; cases hb
      · rw [hpr.2.1] at hb; cases hb
      · obtain ⟨e, a1, a2, a3, a4⟩ := hpr
        rcases a4 with ⟨a4, _⟩ | ⟨a4, _⟩
        · rw [hb] at a4; cases a4
          exact ⟨a1, some x, a1, a2, a3, .inr ⟨rfl, rfl, by simp⟩⟩
        · rw [hb] at a4; cases a4
    exact {
      same := h.same
      cover := ⟨pre, lost, by simpa [Cons.held, hc] using p1, by simpa [It.delivered] using p2, by simp⟩
      prod := hres.2
      files := h.files
      idle := fun _ => rfl
      cause := by
        intro e he
        cases he
        rcases hres.1 with ⟨_, hr⟩ | ⟨hr, hcan⟩
        · exact .inr (.inl hr.symm)
        · cases hr; exact .inl ⟨rfl, hcan⟩
      got := by simp
      over := by
        intro e he
        rcases List.mem_cons.mp he with he | he
        · cases he; exact ⟨rfl, by simp⟩
        · exact absurd he (hno e)
      sticky := no_over (fun e' he => absurd he (hno e')) h.sticky }
  | recvErrClosed hc h2 hb hf =>
    exfalso
    unfold ProdInv at hpr
    split at hpr
    · rw [hpr.2.1] at hf; cases hf
    · rw [hpr.2.2.1] at hf; cases hf
    · obtain ⟨e, a1, a2, a3, a4⟩ := hpr
      rcases a4 with ⟨a4, _⟩ | ⟨_, a4, _⟩
      · rw [hb] at a4; cases a4
      · rw [h2] at a4; cases a4
  | finish hc =>
    rename_i l
    have hfn := h.got l hc
    have hno : ∀ e, .no e ∉ g.log := fun e he => by have := (hnolog (.inr ⟨l, hc⟩) e he).2.1; rw [hfn] at this; cases this
    have hne : g.err = none := by by_contra hne; rw [h.idle hne] at hc; cases hc
    obtain ⟨pre, lost, p1, p2, p3⟩ := h.cover
    have hlost := p3 hne
    subst hlost
    rw [hc] at p1
    have hmem : l ∈ ls := by rw [← p1]; simp [Cons.held]
    have hpi : ∀ (er : Option Err) (t : Nat) (log : List NextRes), ProdInv ls fin { g with err := er, cons := .idle, t := t, log := log } := by
      intro er t log
      unfold ProdInv at hpr ⊢
      dsimp only
      split at hpr
      · exact hpr
      · exact hpr
      · obtain ⟨e, a1, a2, a3, a4⟩ := hpr
        refine ⟨e, a1, a2, a3, ?_⟩
        rcases a4 with a4 | ⟨a4, a5, a6⟩
        · exact .inl a4
        · exact .inr ⟨a4, a5, fun hx => absurd hne (a6 hx)⟩
    have hfail : ∀ (er : Err) (t : Nat), Cause net ls fin g.cancelled er →
        IInv net ls fin { g with err := some er, cons := .idle, t := t, log := .no (some er) :: g.log } := by
      intro er t hcause
      exact {
        same := h.same
        cover := ⟨pre, [l], by simpa [Cons.held] using p1, by simpa [It.delivered] using p2, by simp⟩
        prod := hpi _ _ _
        files := h.files
        idle := fun _ => rfl
        cause := by intro e he; cases he; exact hcause
        got := by simp
        over := by
          intro e he
          rcases List.mem_cons.mp he with he | he
          · cases he; exact ⟨rfl, by simp⟩
          · exact absurd he (hno e)
        sticky := no_over (fun e' he => absurd he (hno e')) h.sticky }
    rw [It.finish]
    split
    · split
      · rename_i e he
        exact hfail e _ (.inr (.inr ⟨l, hmem, .inr ⟨_, he⟩⟩))
      · rename_i f he
        exact {
          same := h.same
          cover := ⟨pre ++ [l], [], by simpa [Cons.held] using p1, by
            have : List.Forall₂ (Opened net) (pre ++ [l]) (g.delivered ++ [(l.name, f)]) := List.rel_append p2 (.cons ⟨rfl, _, he⟩ .nil)
            simpa [It.delivered] using this, fun _ => rfl⟩
          prod := hpi _ _ _
          files := h.files
          idle := fun _ => rfl
          cause := by simp
          got := by simp
          over := by
            intro e he
            rcases List.mem_cons.mp he with he | he
            · cases he
            · exact absurd he (hno e)
          sticky := by
            intro a e b hl x hx
            cases a with
            | nil => cases hx
            | cons y a =>
              simp only [List.cons_append, List.cons.injEq] at hl
              exact absurd (by rw [hl.2]; simp) (hno e) }
    · rename_i hn
      exact hfail _ _ (.inr (.inr ⟨l, hmem, .inl ⟨rfl, g.t, by simpa using hn⟩⟩))

theorem client_inv {g g' : It} (h : IInv net ls fin g) (hs : It.Client g g') : IInv net ls fin g' := by
  cases hs with
  | callErr hc he =>
    rename_i e
    obtain ⟨pre, lost, p1, p2, p3⟩ := h.cover
    exact {
      same := h.same
      cover := ⟨pre, lost, p1, by simpa [It.delivered] using p2, p3⟩
      prod := h.prod
      files := h.files
      idle := h.idle
      cause := h.cause
      got := h.got
      over := by
        intro e' he'
        rcases List.mem_cons.mp he' with h' | h'
        · cases h'; exact ⟨he, by simp⟩
        · exact h.over e' h'
      sticky := no_over (fun e' he' => by rw [← (h.over e' he').1, he]) h.sticky }
  | call hc he =>
    obtain ⟨pre, lost, p1, p2, p3⟩ := h.cover
    exact {
      same := h.same
      cover := ⟨pre, lost, by simpa [Cons.held, hc] using p1, p2, p3⟩
      prod := h.prod
      files := h.files
      idle := fun hn => absurd he hn
      cause := h.cause
      got := by simp
      over := h.over
      sticky := h.sticky }
  | cancel =>
    refine prod_step h rfl rfl rfl rfl rfl rfl rfl (fun _ => rfl) ?_ h.files
    have hpr := h.prod
    have hr : ∀ e, Result ls fin g e → Result ls fin { g with cancelled := true } e := fun e hr => hr.imp id (fun hr => ⟨hr.1, rfl⟩)
    unfold ProdInv at hpr ⊢
    dsimp only
    split at hpr
    · exact hpr
    · exact ⟨hr _ hpr.1, hpr.2⟩
    · obtain ⟨e, a1, a2⟩ := hpr
      exact ⟨e, hr _ a1, a2⟩

theorem steps_inv {n : Nat} {g : It} (h : It.Steps net n (It.start ls fin) g) : IInv net ls fin g := by
  generalize hg : It.start ls fin = g0 at h
  induction h with
  | zero => rw [← hg]; exact start_inv
  | own _ hs ih => exact own_inv (ih hg) hs
  | client _ hs ih => exact client_inv (ih hg) hs

/-! ### Termination -/

def Prod.rank : Prod → Nat
  | .each => 4 | .ret _ => 3 | .sent => 2 | .closedErr => 1 | .done => 0

def Cons.rank : Cons → Nat
  | .loop => 2 | .got _ => 1 | .idle => 0

/-- Bound for the steps that the goroutines can take by themselves. -/
def It.measure (g : It) : Nat :=
  2 * g.todo.length + g.buf.length + g.prod.rank + (if g.filesNil then 0 else 1) + (if g.errNil then 0 else 1) + g.cons.rank

theorem own_measure {g g' : It} (hs : It.Own net g g') : g'.measure < g.measure := by
  cases hs with
  | finish hc =>
    rw [It.finish]
    repeat' split
    all_goals simp [It.measure, hc, Cons.rank]
  | _ => simp_all [It.measure, Prod.rank, Cons.rank]; try omega

theorem owns_bound {n : Nat} {g g' : It} (h : It.Owns net n g g') : n + g'.measure ≤ g.measure := by
  induction h with
  | zero => omega
  | succ _ hs ih => have := own_measure hs; omega

/-- If nothing can move, `Next` has returned. -/
theorem own_progress {g : It} (h : IInv net ls fin g) (hp : g.cons ≠ .idle) : ∃ g', It.Own net g g' := by
  have hpr := h.prod
  cases hc : g.cons with
  | idle => exact absurd hc hp
  | got l => exact ⟨_, .finish hc⟩
  | loop =>
    cases hf : g.filesNil with
    | false =>
      cases hb : g.buf with
      | cons l b => exact ⟨_, .recv hc hf hb⟩
      | nil =>
        cases hq : g.prod with
        | each =>
          cases ht : g.todo with
          | nil => exact ⟨_, .prodRet hq ht⟩
          | cons l t => exact ⟨_, .send hq ht (by rw [hb]; decide)⟩
        | ret e => rw [ProdInv, hq] at hpr; exact ⟨_, .sendErr hq hpr.2.1⟩
        | sent => exact ⟨_, .closeErr hq⟩
        | closedErr => exact ⟨_, .closeFiles hq⟩
        | done => rw [ProdInv, hq] at hpr; obtain ⟨e, _, _, a3, _⟩ := hpr; exact ⟨_, .recvClosed hc hf hb a3⟩
    | true =>
      cases he : g.errNil with
      | true => exact ⟨_, .bothNil hc hf he⟩
      | false =>
        have hcl := (h.files hf).1
        unfold ProdInv at hpr
        split at hpr
        · rw [hpr.2.2.1] at hcl; cases hcl
        · rw [hpr.2.2.2.1] at hcl; cases hcl
        · obtain ⟨e, _, _, _, a4⟩ := hpr
          rcases a4 with ⟨a4, _⟩ | ⟨_, a4, _⟩
          · cases e with
            | none => exact ⟨_, .recvNil hc he a4⟩
            | some x => exact ⟨_, .recvErr hc he a4⟩
          · rw [he] at a4; cases a4

/-! ### `ForEachLink` with a function that fails -/

/-- What a step of the walk does: it appends to the output. -/
structure StepOk (cb : Nat → Bool) (st : EachSt) (R R' : Option Err × Shard × EachSt) : Prop where
  grow : ∃ new, R.2.2.out = st.out ++ new ∧
    (((∀ i < new.length, cb (st.out.length + i) = false) ∧ R' = R) ∨
      ∃ pre l more, new = pre ++ l :: more ∧ (∀ i < pre.length, cb (st.out.length + i) = false) ∧ cb (st.out.length + pre.length) = true ∧
        R'.1 = some (.hamt "callback") ∧ R'.2.2.out = st.out ++ pre ++ [l])

theorem eachLoop_stop {cb : Nat → Bool} {step step' : Shard → EachSt → Option Err × Shard × EachSt} (hstep : ∀ c st, StepOk cb st (step c st) (step' c st)) (net : Net) :
    ∀ (is : List Nat) (s : Shard) (st : EachSt), StepOk cb st (eachLoop net step is s st) (eachLoop net step' is s st) := by
  intro is
  induction is with
  | nil => intro s st; exact ⟨[], by simp [eachLoop], .inl ⟨by simp, rfl⟩⟩
  | cons i is ih =>
    intro s st
    rw [eachLoop, eachLoop]
    generalize s.get net i st.t = G
    obtain ⟨r, t1⟩ := G
    cases r with
    | error e => exact ⟨[], by simp, .inl ⟨by simp, rfl⟩⟩
    | ok q =>
      obtain ⟨c, s1⟩ := q
      dsimp only
      obtain ⟨new, h1, h2⟩ := (hstep c { st with t := t1 }).grow
      generalize step c { st with t := t1 } = R at h1 h2 ⊢
      generalize step' c { st with t := t1 } = R' at h1 h2 ⊢
      obtain ⟨e, c', st'⟩ := R
      obtain ⟨e2, c2, st2⟩ := R'
      dsimp only at h1 h2
      rcases h2 with ⟨h2, h3⟩ | ⟨pre, l, more, h2, h3, h4, h5, h6⟩
      · cases h3
        cases e with
        | some e => exact ⟨new, h1, .inl ⟨h2, rfl⟩⟩
        | none =>
          dsimp only
          obtain ⟨new2, k1, k2⟩ := (ih (s1.setChild c' i) st').grow
          refine ⟨new ++ new2, by rw [k1, h1]; simp, ?_⟩
          have hlen : st'.out.length = st.out.length + new.length := by rw [h1]; simp
          rcases k2 with ⟨k2, k3⟩ | ⟨pre, l, more, k2, k3, k4, k5, k6⟩
          · refine .inl ⟨fun j hj => ?_, k3⟩
            by_cases hjn : j < new.length
            · exact h2 j hjn
            · have := k2 (j - new.length) (by simp at hj; omega)
              rw [hlen, show st.out.length + new.length + (j - new.length) = st.out.length + j by omega] at this
              exact this
          · refine .inr ⟨new ++ pre, l, more, by rw [k2]; simp, fun j hj => ?_, ?_, k5, by rw [k6, h1]; simp⟩
            · by_cases hjn : j < new.length
              · exact h2 j hjn
              · have := k3 (j - new.length) (by simp at hj; omega)
                rw [hlen, show st.out.length + new.length + (j - new.length) = st.out.length + j by omega] at this
                exact this
            · rw [hlen] at k4; simpa [Nat.add_assoc] using k4
      · subst h5
        dsimp only
        cases e with
        | some e => exact ⟨new, h1, .inr ⟨pre, l, more, h2, h3, h4, rfl, h6⟩⟩
        | none =>
          dsimp only
          obtain ⟨new2, k1, _⟩ := (ih (s1.setChild c' i) st').grow
          exact ⟨new ++ new2, by rw [k1, h1]; simp, .inr ⟨pre, l, more ++ new2, by rw [h2]; simp, h3, h4, rfl, h6⟩⟩

theorem forEachF_stop (net : Net) (cb : Nat → Bool) (f : Nat) : ∀ (s : Shard) (st : EachSt), StepOk cb st (forEachF net (fun _ => false) f s st) (forEachF net cb f s st) := by
  induction f with
  | zero => intro s st; exact ⟨[], by simp [forEachF], .inl ⟨by simp, rfl⟩⟩
  | succ f ih =>
    intro s st
    rw [forEachF, forEachF]
    refine eachLoop_stop (fun c st => ?_) net _ _ _
    dsimp only
    split
    · refine ⟨[_], rfl, ?_⟩
      by_cases hc : cb st.out.length = true
      · exact .inr ⟨[], _, [], rfl, by simp, by simpa using hc, by simp [hc], by simp⟩
      · refine .inl ⟨fun i hi => ?_, ?_⟩
        · have : i = 0 := by simpa using hi
          subst this; simpa using hc
        · simp [hc]
    · exact ih c st

/-- `ForEachLink` of either form of directory with the function `cb`: either it goes through the same
links as with a function that never fails, and returns the same, or `cb` fails and the walk ends there. -/
theorem forEach_stop (env : Env) (c : Dir.Cfg) (cb : Nat → Bool) :
    ((∀ i < (linksAndError env c).1.length, cb i = false) ∧ (forEachLink env c cb).1 = (linksAndError env c).1 ∧ (forEachLink env c cb).2.1 = (linksAndError env c).2) ∨
    ∃ pre l more, (linksAndError env c).1 = pre ++ l :: more ∧ (∀ i < pre.length, cb i = false) ∧ cb pre.length = true ∧
      (forEachLink env c cb).1 = pre ++ [l] ∧ (forEachLink env c cb).2.1 = some (.hamt "callback") := by
  simp only [linksAndError, forEachLink]
  cases c.dir with
  | basic b =>
    dsimp only
    simp only [Basic.forEachLink]
    have h0 : Basic.forEachLink.go (fun _ => false) b.links 0 = (b.links, none) := by
      rcases each_go (fun _ => false) b.links 0 with h | ⟨_, _, _, _, _, _, h⟩
      · exact h.1
      · cases h
    rw [h0]
    rcases each_go cb b.links 0 with ⟨h1, h2⟩ | ⟨pre, l, more, h1, h2, h3, h4⟩
    · rw [h1]; exact .inl ⟨by simpa using h2, rfl, rfl⟩
    · rw [h2]; exact .inr ⟨pre, l, more, h1, by simpa using h3, by simpa using h4, rfl, rfl⟩
  | hamt h =>
    dsimp only
    simp only [Shard.forEachLink]
    obtain ⟨new, h1, h2⟩ := (forEachF_stop env.net cb h.shard.depth h.shard { out := [], t := c.t }).grow
    generalize forEachF env.net (fun _ => false) h.shard.depth h.shard { out := [], t := c.t } = R at h1 h2 ⊢
    generalize forEachF env.net cb h.shard.depth h.shard { out := [], t := c.t } = R' at h2 ⊢
    obtain ⟨e, s, es⟩ := R
    obtain ⟨e', s', es'⟩ := R'
    simp only [List.nil_append, List.length_nil, Nat.zero_add] at h1 h2
    dsimp only
    rw [h1]
    rcases h2 with ⟨h2, h3⟩ | ⟨pre, l, more, h2, h3, h4, h5, h6⟩
    · cases h3; exact .inl ⟨h2, h1, rfl⟩
    · exact .inr ⟨pre, l, more, h2, h3, h4, h6, h5⟩

end Unixfs.File
