import Verif.Spec.Dir

/-!
# Model: `EnumLinksAsync` of both forms of a directory

`/repo/io/directory.go:263-279` (basic form) and `389-391` (HAMT form, which is the parallel walk of
`Verif/Hamt/Walk`). The caller reads the channel; it may stop reading and it may cancel the context at
any time. `Links()` is evaluated once, when the goroutine starts its loop. Not modelled: changes of the
directory while the enumeration is running.
-/

namespace Unixfs.Dir
open Unixfs.Hamt

/-- What the goroutine of `BasicDirectory.EnumLinksAsync` is doing (io/directory.go:265-277). -/
inductive Prod where
  /-- At the head of the loop, with these links left (line 267); or in `close`, if there is none (266). -/
  | loop (left : List Link)
  /-- In the `select` (268-275), with `l` to send. -/
  | sending (l : Link) (left : List Link)
  /-- The channel is closed and the goroutine has ended. -/
  | closed
deriving DecidableEq

/-- What the caller is doing. The reader of the channel returned at io/directory.go:263-278. -/
inductive Cons where
  | reading
  /-- It has seen that the channel is closed. -/
  | ended
  /-- It does not read any more. -/
  | gone
deriving DecidableEq

/-- State of an enumeration of a basic directory. io/directory.go:263-278. -/
structure BEnum where
  prod : Prod
  cons : Cons
  cancelled : Bool
  /-- The links that the caller has received. -/
  got : List Link
deriving DecidableEq

/-- After `make` and `go` (io/directory.go:264-265). -/
def BEnum.start (ls : List Link) : BEnum := ⟨.loop ls, .reading, false, []⟩

/-- Steps of the goroutine and of a caller that keeps reading.
io/directory.go:265-277: the loop with its `select`. -/
inductive BStep : BEnum → BEnum → Prop
  /-- The next turn of the loop (io/directory.go:267-268). -/
  | turn {e : BEnum} {l : Link} {ls : List Link} (h : e.prod = .loop (l :: ls)) : BStep e { e with prod := .sending l ls }
  /-- Both sides meet on the unbuffered channel (269-272). -/
  | send {e : BEnum} {l : Link} {ls : List Link} (h : e.prod = .sending l ls) (hc : e.cons = .reading) :
      BStep e { e with prod := .loop ls, got := e.got ++ [l] }
  /-- `<-ctx.Done()` is ready (273-274); `select` may choose it also when the caller is reading. -/
  | done {e : BEnum} {l : Link} {ls : List Link} (h : e.prod = .sending l ls) (hc : e.cancelled = true) : BStep e { e with prod := .closed }
  /-- The loop is over; deferred `close` (266). -/
  | close {e : BEnum} (h : e.prod = .loop []) : BStep e { e with prod := .closed }
  /-- The caller sees the closed channel. -/
  | see {e : BEnum} (h : e.prod = .closed) (hc : e.cons = .reading) : BStep e { e with cons := .ended }

/-- `n` steps, with cancellation and departure of the caller at any time between them.
io/directory.go:263-278. -/
inductive BSteps : Nat → BEnum → BEnum → Prop
  | refl (e : BEnum) : BSteps 0 e e
  | tail {n : Nat} {e e' e'' : BEnum} (h : BSteps n e e') (hs : BStep e' e'') : BSteps (n + 1) e e''
  | cancel {n : Nat} {e e' : BEnum} (h : BSteps n e e') : BSteps n e { e' with cancelled := true }
  | leave {n : Nat} {e e' : BEnum} (h : BSteps n e e') (hr : e'.cons = .reading) : BSteps n e { e' with cons := .gone }

/-- `AsyncRun bad d got err canc`: a caller that reads the channel of `d.EnumLinksAsync` to its end can
receive the links `got` and then the error `err`, if there is one; `canc` tells whether the context was
cancelled meanwhile. `bad`: the nodes that the DAG service does not deliver.
io/directory.go:263-278 and 389-391. -/
inductive AsyncRun (bad : Node → Prop) : Dir → List Link → Option Err → Bool → Prop
  | basic {d : Basic} {n : Nat} {e : BEnum} (h : BSteps n (BEnum.start d.links) e) (he : e.cons = .ended) :
      AsyncRun bad (.basic d) e.got none e.cancelled
  /-- io/directory.go:389-391; 32 workers (hamt.go:493). The channel is closed. -/
  | hamtEnded {h : HamtDir} {n : Nat} {g : Walk} (hs : Steps bad noStop n (Walk.start 32 h.shard) g) (hf : g.Finished)
      (hr : g.ret = some .ended) : AsyncRun bad (.hamt h) g.got none g.cancelled
  /-- The last value received is an error. -/
  | hamtErr {h : HamtDir} {n : Nat} {g : Walk} {e : Err} (hs : Steps bad noStop n (Walk.start 32 h.shard) g) (hf : g.Finished)
      (hr : g.ret = some (.err e)) : AsyncRun bad (.hamt h) g.got (some e) g.cancelled

/-! ### Lemmas about the basic form -/

/-- The links that the goroutine has not sent. Used in specifications and proofs only. -/
def Prod.left : Prod → List Link
  | .loop ls => ls | .sending l ls => l :: ls | .closed => []

/-- Steps that the goroutine and a reading caller can still do. Used in specifications and proofs only. -/
def BEnum.cost (e : BEnum) : Nat :=
  (match e.prod with | .loop ls => 2 * ls.length + 1 | .sending _ ls => 2 * ls.length + 2 | .closed => 0) + (if e.cons = .reading then 1 else 0)

theorem bstep_cost {e e' : BEnum} (h : BStep e e') : e'.cost < e.cost := by
  cases h <;> simp_all [BEnum.cost] <;> omega

theorem bsteps_cost {n : Nat} {e e' : BEnum} (h : BSteps n e e') : n + e'.cost ≤ e.cost := by
  induction h with
  | refl => simp
  | tail _ hs ih => have := bstep_cost hs; omega
  | cancel _ ih => exact ih
  | leave _ hr ih =>
    refine Nat.le_trans (Nat.add_le_add_left ?_ _) ih
    simp [BEnum.cost]

/-- Nothing is lost, doubled or reordered while the goroutine runs. Used in specifications and proofs only. -/
structure BOk (ls : List Link) (e : BEnum) : Prop where
  pre : e.got <+: ls
  all : e.prod ≠ .closed → e.got ++ e.prod.left = ls
  done : e.prod = .closed → e.cancelled = false → e.got = ls
  ended : e.cons = .ended → e.prod = .closed

theorem bok_start (ls : List Link) : BOk ls (BEnum.start ls) := ⟨List.nil_prefix, fun _ => rfl, by simp [BEnum.start], by simp [BEnum.start]⟩

theorem bok_step {ls : List Link} {e e' : BEnum} (h : BOk ls e) (hs : BStep e e') : BOk ls e' := by
  obtain ⟨h1, h2, h3, h4⟩ := h
  cases hs with
  | turn hp => rw [hp] at h2 h4; exact ⟨h1, fun _ => h2 (by simp), by simp, fun hc => nomatch h4 hc⟩
  | send hp hc =>
    rw [hp] at h2 h4
    have h2 := h2 (by simp)
    exact ⟨⟨_, by rw [List.append_assoc]; exact h2⟩, fun _ => by simpa [Prod.left] using h2, by simp, fun hc => nomatch h4 hc⟩
  | done hp hc => exact ⟨h1, by simp, fun _ hc' => (by rw [hc] at hc'; cases hc'), fun _ => rfl⟩
  | close hp => rw [hp] at h2; exact ⟨h1, by simp, fun _ _ => by simpa [Prod.left] using h2 (by simp), fun _ => rfl⟩
  | see hp hc => exact ⟨h1, h2, h3, fun _ => hp⟩

theorem bok_steps {ls : List Link} {n : Nat} {e : BEnum} (h : BSteps n (BEnum.start ls) e) : BOk ls e := by
  generalize he : BEnum.start ls = e0 at h
  induction h with
  | refl => subst he; exact bok_start ls
  | tail _ hs ih => exact bok_step (ih he) hs
  | cancel _ ih => obtain ⟨h1, h2, h3, h4⟩ := ih he; exact ⟨h1, h2, fun _ h => Bool.noConfusion h, h4⟩
  | leave _ hr ih => obtain ⟨h1, h2, h3, h4⟩ := ih he; exact ⟨h1, h2, h3, fun h => nomatch h⟩

theorem BSteps.trans {n m : Nat} {e e' e'' : BEnum} (h : BSteps n e e') (h' : BSteps m e' e'') : BSteps (n + m) e e'' := by
  induction h' with
  | refl => exact h
  | tail _ hs ih => exact .tail (ih h) hs
  | cancel _ ih => exact .cancel (ih h)
  | leave _ hr ih => exact .leave (ih h) hr

/-- With a reader, the enumeration can always go on until the reader has seen the end. -/
theorem bstep_exists {e : BEnum} (h : e.cons = .reading) : ∃ e', BStep e e' := by
  cases hp : e.prod with
  | loop ls => cases ls with
    | nil => exact ⟨_, .close hp⟩
    | cons l ls => exact ⟨_, .turn hp⟩
  | sending l ls => exact ⟨_, .send hp h⟩
  | closed => exact ⟨_, .see hp h⟩

/-- The caller receives the first links. -/
theorem bsteps_take {pre post : List Link} : ∃ n, BSteps n (BEnum.start (pre ++ post)) ⟨.loop post, .reading, false, pre⟩ := by
  induction pre using List.reverseRecOn generalizing post with
  | nil => exact ⟨0, .refl _⟩
  | append_singleton pre l ih =>
    obtain ⟨n, h⟩ := ih (post := l :: post)
    refine ⟨n + 1 + 1, ?_⟩
    rw [List.append_assoc]
    exact .tail (.tail h (.turn rfl)) (.send rfl rfl)

end Unixfs.Dir
