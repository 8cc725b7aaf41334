import Verif.Dir.Async
import Verif.Props.Dir

/-!
# `EnumLinksAsync` of a directory: C76

`AsyncRun bad d got err canc`: what a caller that reads the channel to its end can receive, under some
schedule, from either form of a directory. `mapAfter` is the map that the history has made
(`Verif/Spec/Dir`).
-/

namespace Unixfs.Props
open Unixfs.Hamt hiding exec execAll results NoEmptyName lastWrite Cfg
open Unixfs.Dir

variable {env : Dir.Env} {lg : Nat} {data : Bytes} {ls : List Link} {b : Builder} {d : Basic} {thr : Int} {ops : List DOp}
variable {bad : Node → Prop} {got : List Link} {err : Option Err} {canc : Bool}

/-- C76: on a directory made by any history, in either form, under every schedule: what is received
are entries of the directory, none of them twice; if the context was not cancelled and no error was
received, it is all of them. -/
theorem C76_entries (hv : env.Valid lg) (hr : env.Real) (hd : newDirectoryFromNode (.proto data ls b) = .ok (.basic d)) (hu : (ls.map Link.name).Nodup)
    (hne : [] ∉ ls.map Link.name) (hn : NoEmptyName ops)
    (h : AsyncRun bad (execAll env ops (start (.basic d) thr)).dir got err canc) :
    (∃ more, Lists (mapAfter env (mapOf ls) ops (start (.basic d) thr)) (got ++ more)) ∧
    (err = none → canc = false → Lists (mapAfter env (mapOf ls) ops (start (.basic d) thr)) got) := by
  obtain ⟨M', h1, h2⟩ := execAll_dspec (W := (· = lg)) (bo := none) hr rfl hv.hp hv.width (by simp) ops (c := start (.basic d) thr) ⟨mapOf_empty hne, (loaded_inv hd hu).1, by simp [Plain]⟩ hn (by simp)
  rw [← h2.after]
  obtain ⟨_, h1⟩ := h1
  generalize (execAll env ops (start (.basic d) thr)).dir = D at h h1
  cases h with
  | basic h he =>
    have hk := bok_steps h
    have hl := h1.1.lists
    obtain ⟨more, hm⟩ := hk.pre
    exact ⟨⟨more, by rw [hm]; exact hl⟩, fun _ hc => by rw [hk.done (hk.ended he) hc]; exact hl⟩
  | @hamtEnded hd n g hs hf hr =>
    obtain ⟨lg', _, hp, b', cs, hi, _⟩ := h1
    have hsp := walk_spec (r := ⟨.ended, g.got⟩) (cancel := g.cancelled = true) hp hi hs hf hr rfl (fun h => .inr h)
    exact ⟨hsp.part, fun _ hc => (hsp.ended rfl).resolve_left (by rw [hc]; simp)⟩
  | @hamtErr hd n g e hs hf hr =>
    obtain ⟨lg', _, hp, b', cs, hi, _⟩ := h1
    have hsp := walk_spec (r := ⟨.err e, g.got⟩) (cancel := g.cancelled = true) hp hi hs hf hr rfl (fun h => .inr h)
    exact ⟨hsp.part, fun h => by cases h⟩

/-- C76: an error is received only if the DAG service failed to deliver something or the context was
cancelled. -/
theorem C76_error (hv : env.Valid lg) (hr : env.Real) (hd : newDirectoryFromNode (.proto data ls b) = .ok (.basic d)) (hu : (ls.map Link.name).Nodup)
    (hne : [] ∉ ls.map Link.name) (hn : NoEmptyName ops) {e : Err}
    (h : AsyncRun bad (execAll env ops (start (.basic d) thr)).dir got (some e) canc) : (∃ x, bad x) ∨ canc = true := by
  obtain ⟨M', h1, h2⟩ := execAll_dspec (W := (· = lg)) (bo := none) hr rfl hv.hp hv.width (by simp) ops (c := start (.basic d) thr) ⟨mapOf_empty hne, (loaded_inv hd hu).1, by simp [Plain]⟩ hn (by simp)
  obtain ⟨_, h1⟩ := h1
  generalize (execAll env ops (start (.basic d) thr)).dir = D at h h1
  cases h with
  | @hamtErr hd n g e hs hf hr =>
    obtain ⟨lg', _, hp, b', cs, hi, _⟩ := h1
    exact (walk_spec (r := ⟨.err e, g.got⟩) (cancel := g.cancelled = true) hp hi hs hf hr rfl (fun h => .inr h)).err e rfl

/-- C76: the enumeration of a basic directory with `n` links is over after at most `2 n + 2` steps,
whatever the caller does. -/
theorem C76_basic_bounded {k : Nat} {e : BEnum} (h : BSteps k (BEnum.start ls) e) : k ≤ 2 * ls.length + 2 := by
  have := bsteps_cost h
  simp [BEnum.start, BEnum.cost] at this
  omega

/-- C76: the enumeration of a basic directory does not block a caller that reads; and the goroutine
can go on until it has ended if the caller reads or has cancelled the context. -/
theorem C76_basic_no_deadlock {k : Nat} {e : BEnum} (h : BSteps k (BEnum.start ls) e) :
    (e.cons = .reading → ∃ e', BStep e e') ∧ (e.cancelled = true → e.prod ≠ .closed → ∃ e', BStep e e') := by
  refine ⟨bstep_exists, fun hc hp => ?_⟩
  cases hp' : e.prod with
  | loop ls => cases ls with
    | nil => exact ⟨_, .close hp'⟩
    | cons l ls => exact ⟨_, .turn hp'⟩
  | sending l ls => exact ⟨_, .done hp' hc⟩
  | closed => exact absurd hp' hp

/-- C76: an enumeration of a basic directory delivers the links in the order of the node. -/
theorem C76_basic_order {k : Nat} {e : BEnum} (h : BSteps k (BEnum.start ls) e) :
    e.got <+: ls ∧ (e.cons = .ended → e.cancelled = false → e.got = ls) := by
  have hk := bok_steps h
  exact ⟨hk.pre, fun h1 h2 => hk.done (hk.ended h1) h2⟩

/-- C76: a caller that stops reading and does not cancel the context leaves a goroutine that never
ends, unless the caller had received all links. -/
theorem C76_leak {k : Nat} {e : BEnum} (h : BSteps k (BEnum.start ls) e) (hg : e.cons = .gone) (hc : e.cancelled = false) (hl : e.got ≠ ls)
    {m : Nat} {e' : BEnum} (h' : BSteps m e e') (hc' : e'.cancelled = false) : e'.prod ≠ .closed := by
  have hk := bok_steps (h.trans h')
  have key : e'.cons = .gone ∧ e'.got = e.got := by
    clear h hk hl
    induction h' with
    | refl => exact ⟨hg, rfl⟩
    | tail h1 hs ih =>
      cases hs with
      | turn hp => exact ih hg hc hc'
      | send hp hr => rw [(ih hg hc hc').1] at hr; cases hr
      | done hp hr => exact ih hg hc hc'
      | close hp => exact ih hg hc hc'
      | see hp hr => rw [(ih hg hc hc').1] at hr; cases hr
    | cancel => cases hc'
    | leave h1 hr ih => rw [(ih hg hc hc').1] at hr; cases hr
  intro hp
  exact hl (key.2 ▸ hk.done hp hc')

/-- C76: an undisturbed enumeration of any directory comes to its end. -/
theorem C76_finishes (bad : Node → Prop) (D : Dir) : ∃ got err, AsyncRun bad D got err false := by
  cases D with
  | basic d =>
    obtain ⟨n, h⟩ := bsteps_take (pre := d.links) (post := [])
    rw [List.append_nil] at h
    exact ⟨_, _, .basic (.tail (.tail h (.close rfl)) (.see rfl rfl)) rfl⟩
  | hamt h =>
    obtain ⟨k, g, h1, h2, h3⟩ := C40_finishes (bad := bad) (n := 32) (by omega) (.refl (Walk.start 32 h.shard))
    have h3 : g.cancelled = false := h3
    rw [← h3]
    cases hr : g.ret with
    | none => exact absurd hr h2.2.2
    | some r =>
      cases r with
      | ended => exact ⟨_, _, .hamtEnded h1 h2 hr⟩
      | err e => exact ⟨_, _, .hamtErr h1 h2 hr⟩
      | stopped =>
        exact absurd ((winv_steps h1).ctl.retStop hr).2 (by simp [noStop])

/-- C76 is violated for cancelled contexts: a caller that reads a basic directory to the end can get
any part of the list, with no error to tell it from a complete list. -/
theorem C76_silent_violated (bad : Node → Prop) (d : Basic) {k : Nat} (hk : k < d.links.length) : AsyncRun bad (.basic d) (d.links.take k) none true := by
  obtain ⟨n, h⟩ := bsteps_take (pre := d.links.take k) (post := d.links.drop k)
  rw [List.take_append_drop] at h
  cases hl : d.links.drop k with
  | nil => rw [List.drop_eq_nil_iff] at hl; omega
  | cons l post =>
    rw [hl] at h
    exact .basic (.tail (.tail (.cancel (.tail h (.turn rfl))) (.done rfl rfl)) (.see rfl rfl)) rfl

/-! ### The hypotheses can be met -/

/-- Two entries below the threshold: the directory is basic. -/
def exPair2 : List DOp := [.add [0x10] (exNd 1), .add [0x11] (exNd 2)]

theorem exPair2_quiet : quiet exEnv exPair2 (start newDirectory 5000) = true := by decide +kernel

/-- C76: a basic directory with two entries and a HAMT with two entries; undisturbed enumerations of
both deliver everything. -/
example : ∃ env, env.Valid 3 ∧ env.Real ∧
    (∃ d got, (execAll env exPair2 (start newDirectory 5000)).dir = .basic d ∧ AsyncRun (fun _ => False) (.basic d) got none false ∧
      Lists (mapAfter env (mapOf []) exPair2 (start newDirectory 5000)) got) ∧
    (∃ h got, (execAll env exCross (start newDirectory 50)).dir = .hamt h ∧ AsyncRun (fun _ => False) (.hamt h) got none false ∧
      Lists (mapAfter env (mapOf []) exCross (start newDirectory 50)) got) := by
  obtain ⟨env, ⟨E, B, C, he⟩, hr, _⟩ := exists_ex
  have hv : env.Valid 3 := IsEx.valid ⟨E, B, C, he⟩
  have key : ∀ (ops : List DOp) (thr : Int), NoEmptyName ops → ∃ got, AsyncRun (fun _ => False) (execAll env ops (start newDirectory thr)).dir got none false ∧
      Lists (mapAfter env (mapOf []) ops (start newDirectory thr)) got := by
    intro ops thr hn
    obtain ⟨got, err, h⟩ := C76_finishes (fun _ => False) (execAll env ops (start newDirectory thr)).dir
    cases err with
    | some e =>
      rcases C76_error hv hr fresh_loaded (by simp) (by simp) hn h with ⟨_, h⟩ | h
      · exact h.elim
      · cases h
    | none => exact ⟨got, h, (C76_entries hv hr fresh_loaded (by simp) (by simp) hn h).2 rfl rfl⟩
  refine ⟨env, hv, hr, ?_, ?_⟩
  · obtain ⟨got, h1, h2⟩ := key exPair2 5000 (by simp [NoEmptyName, exPair2, DOp.target])
    obtain ⟨d, hd⟩ : ∃ d, (execAll env exPair2 (start newDirectory 5000)).dir = .basic d := by
      rw [he, (execAll_congr (E := E) (B := B) (C := C) exPair2 _ exPair2_quiet).1]
      exact ⟨_, rfl⟩
    rw [hd] at h1
    exact ⟨d, got, hd, h1, h2⟩
  · obtain ⟨got, h1, h2⟩ := key exCross 50 (by simp [NoEmptyName, exCross, DOp.target])
    obtain ⟨h, hd⟩ : ∃ h, (execAll env exCross (start newDirectory 50)).dir = .hamt h := by
      rw [he, (execAll_congr (E := E) (B := B) (C := C) exCross _ exCross_quiet).1]
      exact view_none (by decide +kernel)
    rw [hd] at h1
    exact ⟨h, got, hd, h1, h2⟩

end Unixfs.Props
