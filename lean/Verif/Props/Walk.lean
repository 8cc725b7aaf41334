import Verif.Hamt.WalkMap
import Verif.Props.Hamt

/-!
# The parallel enumeration: C39–C42

`Steps bad stop k (Walk.start n root) g`: the enumeration of `root` with `n` workers can be in state
`g` after `k` steps. The steps range over every schedule of the workers, the dispatcher and the
consumer, and a cancellation by the caller may happen between any two of them. `bad` is the set of
nodes that the DAG service cannot deliver; a walk asks for a node at most once, so that a fixed set
per walk covers every choice of failures. `g.got` is what the caller has received, `g.ret` how the
enumeration ended for the caller.
-/

namespace Unixfs.Props
open Unixfs.Hamt

variable {H : Hash} {lg : Nat} {s0 root : Shard} {net : Net} {ref : Nat → Bool} {t : Nat} {st : List Node} {ops : List Op}
variable {bad : Node → Prop} {stop : List Link → Bool} {n k : Nat} {g : Walk}

/-! ### C40: termination, no deadlock -/

/-- C40: there is a bound on the number of steps that depends only on the shard and the number of
workers; schedules, failures, cancellation and the consumer have no influence on it. -/
theorem C40_bounded (n : Nat) (root : Shard) : ∃ B, ∀ bad stop k g, Steps bad stop k (Walk.start n root) g → k ≤ B :=
  ⟨(Walk.start n root).cost, fun bad stop k g h => by have := steps_cost h; omega⟩

/-- C40: no deadlock. As long as a goroutine is running or the caller waits, some step is possible
(and it is not the caller's cancellation, which `Step` does not contain). -/
theorem C40_no_deadlock (hn : 0 < n) (h : Steps bad stop k (Walk.start n root) g) (hf : ¬ g.Finished) : ∃ g', Step bad stop g g' := by
  by_contra hs
  refine hf (step_or_finished (ctl_steps (ctl_start n root) h) ?_ (fun g' hs' => hs ⟨g', hs'⟩))
  have := steps_workers h
  intro h0
  rw [h0] at this
  simp [Walk.start] at this
  omega

/-- C40: from every state, the end can be reached without cancellation. -/
theorem C40_finishes (hn : 0 < n) (h : Steps bad noStop k (Walk.start n root) g) :
    ∃ k' g', Steps bad noStop k' g g' ∧ g'.Finished ∧ g'.cancelled = g.cancelled := by
  obtain ⟨k', g', h1, h2, h3⟩ := finishes hn h
  exact ⟨k', g', h1, h2, h3 rfl⟩

/-- A shard with an entry in memory, an unloaded entry and an unloaded sub-shard with two entries. -/
def exRoot : Shard := (execAll H0 goodNet goodAdd (exOps ++ [.reload, .set [0x99] (exNd 9)]) ⟨exS 8, 0, []⟩).shard

/-- `exRoot` has a sub-shard that is not loaded, an unloaded entry and a loaded one. -/
example : (exRoot.slots.map fun | .link l => (decide ((childLinkType 8 l).toOption = some .shardLink), false) | .child c => (false, c.isValueNode)) =
    [(true, false), (false, true)] := by decide +kernel

/-- An undisturbed run with 32 workers that comes to its end, so that the theorems about finished
runs apply. -/
example : ∃ k g, Steps (fun _ => False) noStop k (Walk.start 32 exRoot) g ∧ g.Finished ∧ g.cancelled = false :=
  let ⟨k, g, h⟩ := C40_finishes (by omega) (.refl (Walk.start 32 exRoot)); ⟨k, g, h⟩

/-! ### C39: completeness -/

/-- C39: in a directory made by any history of operations, under every schedule: if everything that
was stored can be fetched and the caller does not cancel, the enumeration ends without an error
and yields every entry exactly once. -/
theorem C39_complete (hH : ∀ k, (H k).length = 8) (hs : newShard ((2 ^ lg : Nat) : Int) = .ok s0) (hn : NoEmptyName ops)
    (hbad : ∀ x ∈ (execAll H net ref ops ⟨s0, t, st⟩).st, ¬ bad x)
    (h : Steps bad noStop k (Walk.start n (execAll H net ref ops ⟨s0, t, st⟩).shard) g) (hf : g.Finished) (hc : g.cancelled = false) :
    g.ret = some .ended ∧ Lists (fun k => lastWrite k none (ops.zip (results H net ref ops ⟨s0, t, st⟩))) g.got := by
  obtain ⟨hp, rfl⟩ := hp_of_new hH hs
  obtain ⟨b, cs, M, hi, hr⟩ := execAll_spec hp net ref ops (inv_new hp none t st) hn
  have hM : (fun k => lastWrite k none (ops.zip (results H net ref ops ⟨.mk (2 ^ lg) (bfNew (2 ^ lg)) [] none [] none, t, st⟩))) = M :=
    funext fun k => (SpecRun.last hr k).symm
  rw [hM]
  have hok : ∀ p, PartOf (execAll H net ref ops ⟨.mk (2 ^ lg) (bfNew (2 ^ lg)) [] none [] none, t, st⟩).shard p → ¬ Faulty bad p :=
    fun p hq => repPart_ok hp hbad (repPart_of hp hi.holds.wf hi.rep hq)
  have hne : ∀ e, g.ret ≠ some (.err e) := by
    intro e he
    have hw := winv_steps h
    rcases hw.caused.gerr (by rw [hw.ctl.retErr e he]; rfl) with h' | ⟨p, hp', hf'⟩
    · rw [hc] at h'; cases h'
    · exact hok p hp' hf'
  obtain ⟨h1, _, h3⟩ := finished_complete h hf hc hne
  refine ⟨h1, ?_⟩
  have hl := entries_lists hi.holds
  have hle := got_le h
  rw [rep_tally hp _ _ _ _ _ _ hi.holds.wf hi.rep, Multiset.coe_le] at hle
  refine lists_perm hl (hle.perm_of_length_le ?_)
  refine List.Subperm.length_le (List.subperm_of_subset (lists_nodup hl) fun x hx => ?_)
  obtain ⟨e, he, rfl⟩ := List.mem_map.mp hx
  obtain ⟨t, ht, hte⟩ := rep_entry hp _ _ _ _ _ _ hi.holds.wf hi.rep e he
  exact h3 t _ ht hte

/-- C39: for any shard whatever, also one that was loaded from foreign data: if nothing below it is
missing or malformed, the enumeration yields exactly the entries of its parts. -/
theorem C39_any_shard (hbad : ∀ p, PartOf root p → ¬ Faulty bad p) (h : Steps bad noStop k (Walk.start n root) g) (hf : g.Finished)
    (hc : g.cancelled = false) : g.ret = some .ended ∧ ∀ v, v ∈ g.got ↔ ∃ s, PartOf root (.shard s) ∧ Entry s v := by
  have hw := winv_steps h
  have hne : ∀ e, g.ret ≠ some (.err e) := by
    intro e he
    rcases hw.caused.gerr (by rw [hw.ctl.retErr e he]; rfl) with h' | ⟨p, hp', hf'⟩
    · rw [hc] at h'; cases h'
    · exact hbad p hp' hf'
  obtain ⟨h1, _, h3⟩ := finished_complete h hf hc hne
  exact ⟨h1, fun v => ⟨fun hv => hw.caused.origin v (.inl hv), fun ⟨s, hs, hv⟩ => h3 s v hs hv⟩⟩

/-- The hypotheses of `C39_complete` are met: the example directory with its three entries. -/
example : ∃ k g, Steps (fun _ => False) noStop k (Walk.start 32 exRoot) g ∧ g.Finished ∧ g.ret = some .ended ∧
    .mk [0x11] (exNd 2).size (exNd 2) ∈ g.got ∧ .mk [0x10] (exNd 4).size (exNd 4) ∈ g.got ∧ .mk [0x99] (exNd 9).size (exNd 9) ∈ g.got := by
  obtain ⟨k, g, h1, h2, h3⟩ := C40_finishes (bad := fun _ => False) (by omega) (.refl (Walk.start 32 exRoot))
  have hne : NoEmptyName (exOps ++ [Op.reload, .set [0x99] (exNd 9)]) := by simp [NoEmptyName, exOps, Op.target]
  have hr : results H0 goodNet goodAdd (exOps ++ [Op.reload, .set [0x99] (exNd 9)]) ⟨exS 8, 0, []⟩ =
      [.done, .done, .done, .prev (some ((exNd 1).size, exNd 1)), .done, .done, .done] := by decide +kernel
  unfold exRoot at h1
  obtain ⟨h4, h5⟩ := C39_complete H0_length exS_new hne (fun _ _ => id) h1 h2 h3
  rw [hr] at h5
  refine ⟨k, g, h1, h2, h4, (h5.2 [0x11] ((exNd 2).size, exNd 2)).mp (by decide +kernel), (h5.2 [0x10] ((exNd 4).size, exNd 4)).mp (by decide +kernel),
    (h5.2 [0x99] ((exNd 9).size, exNd 9)).mp (by decide +kernel)⟩

/-! ### C41: failures are reported -/

/-- C41: if any part of the directory cannot be fetched or decoded, an enumeration that was not
cancelled ends with an error, under every schedule. -/
theorem C41_reported {p : Part} (hp : PartOf root p) (hbad : Faulty bad p) (h : Steps bad noStop k (Walk.start n root) g) (hf : g.Finished)
    (hc : g.cancelled = false) : ∃ e, g.ret = some (.err e) := by
  by_contra hne
  exact (finished_complete h hf hc (fun e he => hne ⟨e, he⟩)).2.1 p hp hbad

/-- C41: an error is never invented: there is a part that cannot be read, or the caller cancelled. -/
theorem C41_cause {e : Err} (h : Steps bad stop k (Walk.start n root) g) (he : g.ret = some (.err e)) :
    g.cancelled = true ∨ ∃ p, PartOf root p ∧ Faulty bad p := by
  have hw := winv_steps h
  exact hw.caused.gerr (by rw [hw.ctl.retErr e he]; rfl)

/-- The example directory with its sub-shard missing: `EnumLinks` fails. -/
example : ∃ k g, Steps (fun _ => True) noStop k (Walk.start 32 exRoot) g ∧ g.Finished ∧ ∃ e, g.ret = some (.err e) := by
  obtain ⟨k, g, h1, h2, h3⟩ := C40_finishes (bad := fun _ => True) (by omega) (.refl (Walk.start 32 exRoot))
  have h : (match (exRoot.slots[0]? : Option Slot) with | some (.link l) => decide ((childLinkType exRoot.size l).toOption = some .shardLink) | _ => false) = true := by decide +kernel
  cases hs : exRoot.slots[0]? with
  | none => rw [hs] at h; cases h
  | some x =>
    rw [hs] at h
    cases x with
    | child c => cases h
    | link l =>
      refine ⟨k, g, h1, h2, C41_reported (p := .stored l.target) (.tail .refl (.link (List.mem_of_getElem? hs) ?_)) (.inl trivial) h1 h2 h3⟩
      simp only [decide_eq_true_eq] at h
      revert h
      cases childLinkType exRoot.size l <;> simp [Except.toOption]

/-! ### C42: cancellation -/

theorem close_all {bad : Node → Prop} {stop : List Link → Bool} (g : Walk) (hm : g.main = .waiting) : ∀ (m : Nat) (pre : List Worker), g.workers = pre ++ List.replicate m .idle →
    (∀ w ∈ pre, w = .exit) → ∃ k, ∃ ws : List Worker, Steps bad stop k g { g with workers := ws } ∧ ∀ w ∈ ws, w = .exit := by
  intro m
  induction m generalizing g with
  | zero => intro pre hw hp; exact ⟨0, pre, by rw [List.replicate_zero, List.append_nil] at hw; rw [← hw]; exact .refl _, hp⟩
  | succ m ih =>
    intro pre hw hp
    have hi : g.workers[pre.length]? = some .idle := by rw [hw]; simp [List.replicate_succ]
    have hstep : Step bad stop g (g.move pre.length .exit) := .feedClosed (fun a b c h => by rw [hm] at h; cases h) hi
    obtain ⟨k, ws, h1, h2⟩ := ih (g.move pre.length .exit) hm (pre ++ [.exit]) (by simp [Walk.move, hw, List.replicate_succ])
      (fun w hw => by rcases List.mem_append.mp hw with h | h; exacts [hp w h, List.mem_singleton.mp h])
    exact ⟨1 + k, ws, Steps.trans (.one hstep) h1, h2⟩

/-- Whatever the consumer does: a run in which the caller cancels at once and nothing is received. -/
theorem cancelled_empty (bad : Node → Prop) (stop : List Link → Bool) (n : Nat) (root : Shard) :
    ∃ k g, Steps bad stop k (Walk.start n root) g ∧ g.Finished ∧ g.ret = some .ended ∧ g.got = [] := by
  have h1 : Steps bad stop 1 (Walk.start n root) (Walk.start n root).cancel := .cancel (.refl _) rfl
  have h2 : Step bad stop (Walk.start n root).cancel { (Walk.start n root).cancel with main := .waiting } := .mainCancel rfl (.inl rfl)
  obtain ⟨k, ws, h3, h4⟩ := close_all (bad := bad) (stop := stop) { (Walk.start n root).cancel with main := .waiting } rfl n [] rfl (by simp)
  have h5 := h1.trans ((Steps.one h2).trans h3)
  have h6 := Steps.tail (Steps.tail h5 (.wait rfl h4)) (.recvClosed rfl rfl)
  exact ⟨_, _, h6, ⟨rfl, h4, by simp⟩, rfl, rfl⟩

/-- C42 is violated: whatever the directory holds, if the caller cancels early enough the enumeration
can end without an error and with an empty list. -/
theorem C42_violated (bad : Node → Prop) (n : Nat) (root : Shard) :
    ∃ k g, Steps bad noStop k (Walk.start n root) g ∧ g.Finished ∧ g.ret = some .ended ∧ g.got = [] := cancelled_empty bad noStop n root

/-- The violation is not about empty directories. -/
example : ∃ k g, Steps (fun _ => False) noStop k (Walk.start 32 exRoot) g ∧ g.Finished ∧ g.ret = some .ended ∧ g.got = [] ∧ ∃ v, Entry exRoot v := by
  obtain ⟨k, g, h1, h2, h3, h4⟩ := C42_violated (fun _ => False) 32 exRoot
  refine ⟨k, g, h1, h2, h3, h4, ?_⟩
  have h : (match (exRoot.slots[1]? : Option Slot) with | some (.child c) => c.val.isSome | _ => false) = true := by decide +kernel
  cases hs : exRoot.slots[1]? with
  | none => rw [hs] at h; cases h
  | some x =>
    rw [hs] at h
    cases x with
    | link c => cases h
    | child c =>
      obtain ⟨v, hv⟩ := Option.isSome_iff_exists.mp h
      exact ⟨_, .child (List.mem_of_getElem? hs) hv⟩

/-- C42, what holds: a list that ends without an error and is not complete is possible only after a
cancellation. Missing: the caller is not told (`C42_violated`), and cannot tell this list from a
complete one. -/
theorem C42_only_cancelled_partial (h : Steps bad noStop k (Walk.start n root) g) (hf : g.Finished) (hr : g.ret = some .ended)
    (hinc : (∃ p, PartOf root p ∧ Faulty bad p) ∨ ∃ s v, PartOf root (.shard s) ∧ Entry s v ∧ v ∉ g.got) : g.cancelled = true := by
  by_contra hc
  obtain ⟨_, h2, h3⟩ := finished_complete h hf (by simpa using hc) (fun e he => by rw [hr] at he; cases he)
  rcases hinc with ⟨p, hp, hb⟩ | ⟨s, v, hs, hv, hn⟩
  · exact h2 p hp hb
  · exact hn (h3 s v hs hv)

/-- C42, what holds: at every moment of every run, whatever fails and whoever cancels, the entries
received so far are entries of the directory, none twice. Missing: as above. -/
theorem C42_prefix_partial (hH : ∀ k, (H k).length = 8) (hs : newShard ((2 ^ lg : Nat) : Int) = .ok s0) (hn : NoEmptyName ops)
    (h : Steps bad stop k (Walk.start n (execAll H net ref ops ⟨s0, t, st⟩).shard) g) :
    (g.got.map Link.name).Nodup ∧
      ∀ l ∈ g.got, lastWrite l.name none (ops.zip (results H net ref ops ⟨s0, t, st⟩)) = some (l.tsize, l.target) := by
  obtain ⟨hp, rfl⟩ := hp_of_new hH hs
  obtain ⟨b, cs, M, hi, hr⟩ := execAll_spec hp net ref ops (inv_new hp none t st) hn
  have hl := entries_lists hi.holds
  have hle := got_le h
  rw [rep_tally hp _ _ _ _ _ _ hi.holds.wf hi.rep, Multiset.coe_le] at hle
  refine ⟨?_, fun l hl' => ?_⟩
  · obtain ⟨x, hx, hsub⟩ := hle
    exact (hx.map _).nodup_iff.mp (hl.1.sublist (hsub.map _))
  · rw [← SpecRun.last hr, hl.2]
    have := hle.subset hl'
    cases l
    exact this

theorem cancel_after_one {root : Shard} {v : Link} {vs : List Link} {r : Except Err Frontier} (h : root.walkChildren = (v :: vs, r)) :
    ∃ (k : Nat) (g : Walk), Steps (fun _ => False) noStop k (Walk.start 1 root) g ∧ g.cancelled = true ∧ g.got = [v] := by
  have s1 : Steps (fun _ => False) noStop 0 (Walk.start 1 root) (Walk.start 1 root) := .refl _
  have s2 := s1.tail (.feed (i := 0) rfl rfl)
  have s3 := s2.tail (.shard (i := 0) rfl)
  rw [h] at s3
  have s4 := s3.tail (.emitSend (i := 0) rfl rfl)
  exact ⟨_, _, s4.cancel rfl, rfl, rfl⟩

/-- A run of the example that is cancelled after one entry was received. -/
example : ∃ (k : Nat) (g : Walk), Steps (fun _ => False) noStop k (Walk.start 1 exRoot) g ∧ g.cancelled = true ∧ g.got.length = 1 := by
  have h : exRoot.walkChildren.1.length = 1 := by decide +kernel
  generalize exRoot = root at h
  cases hw : root.walkChildren with
  | mk l r =>
    rw [hw] at h
    cases l with
    | nil => cases h
    | cons v vs =>
      obtain ⟨k, g, h1, h2, h3⟩ := cancel_after_one hw
      exact ⟨k, g, h1, h2, by rw [h3]; rfl⟩

end Unixfs.Props
