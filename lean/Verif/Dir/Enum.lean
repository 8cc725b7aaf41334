import Verif.Dir.Lemmas
import Verif.Hamt.WalkMap
import Verif.Hamt.WalkTerm

/-!
# What an enumeration can tell a directory
-/

namespace Unixfs.Dir
open Unixfs.Hamt

variable {bad : Node → Prop} {stop : List Link → Bool}

theorem receive_got (g : Walk) (v : Link) : (g.receive stop v).got = g.got ++ [v] := by rw [Walk.receive]; split <;> rfl

/-- A consumer that has not left has not seen enough. Used in specifications and proofs only. -/
def Unstopped (stop : List Link → Bool) (g : Walk) : Prop := g.ret ≠ some .stopped → g.got = [] ∨ stop g.got = false

theorem unstopped_step {g g' : Walk} (h : Unstopped stop g) (hs : Step bad stop g g') : Unstopped stop g' := by
  have key : g'.got = g.got → (g'.ret = g.ret ∨ g.ret = none) → Unstopped stop g' := by
    intro h1 h2 h3
    rw [h1]
    refine h ?_
    rcases h2 with h2 | h2
    · rwa [h2] at h3
    · rw [h2]; simp
  cases hs with
  | emitSend hi hr =>
    intro h1
    right
    rw [Walk.receive] at h1 ⊢
    split at h1
    · simp at h1
    · rename_i hc
      rw [if_neg hc]
      simpa using hc
  | errSend hm hr => exact key rfl (.inr hr)
  | recvClosed hm hr => exact key rfl (.inr hr)
  | _ => exact key rfl (.inl rfl)

theorem unstopped_steps {m n : Nat} {root : Shard} {g : Walk} (h : Steps bad stop m (Walk.start n root) g) : Unstopped stop g := by
  generalize hg0 : Walk.start n root = g0 at h
  induction h with
  | refl => subst hg0; exact fun _ => .inl rfl
  | tail _ hs ih => exact unstopped_step (ih hg0) hs
  | cancel _ _ ih => exact ih hg0

/-- A consumer that has left has received something. -/
theorem stopped_some {m n : Nat} {root : Shard} {g : Walk} (h : Steps bad stop m (Walk.start n root) g) : g.ret = some .stopped → g.got ≠ [] := by
  generalize hg0 : Walk.start n root = g0 at h
  induction h with
  | refl => subst hg0; intro h; cases h
  | tail _ hs ih =>
    have ih := ih hg0
    cases hs with
    | emitSend hi hr => intro _; rw [receive_got]; simp
    | errSend hm hr => intro h; cases h
    | recvClosed hm hr => intro h; cases h
    | _ => exact ih
  | cancel _ _ ih => exact ih hg0

/-- Only the consumer ends the context when the caller does not. -/
theorem cancelled_step {g g' : Walk} (h : g.cancelled = true → g.ret = some .stopped) (hs : Step bad stop g g') : g'.cancelled = true → g'.ret = some .stopped := by
  cases hs with
  | emitSend hi hr =>
    rw [Walk.receive]
    split
    · intro _; rfl
    · exact h
  | errSend hm hr => intro hc; have := h hc; rw [hr] at this; cases this
  | recvClosed hm hr => intro hc; have := h hc; rw [hr] at this; cases this
  | _ => exact h

/-- Every run can be brought to its end without a cancellation by the caller. -/
theorem finishes_free {m n : Nat} {root : Shard} {g : Walk} (hn : 0 < n) (h : Steps bad stop m (Walk.start n root) g)
    (hc : g.cancelled = true → g.ret = some .stopped) :
    ∃ k g', Steps bad stop k (Walk.start n root) g' ∧ g'.Finished ∧ (g'.cancelled = true → g'.ret = some .stopped) := by
  induction hcost : g.cost using Nat.strong_induction_on generalizing m g with
  | _ c ih =>
    by_cases hs : ∃ g', Step bad stop g g'
    · obtain ⟨g', hs⟩ := hs
      exact ih g'.cost (by rw [← hcost]; exact step_cost hs) (.tail h hs) (cancelled_step hc hs) rfl
    · refine ⟨m, g, h, step_or_finished (ctl_steps (ctl_start n root) h) ?_ (fun g' hs' => hs ⟨g', hs'⟩), hc⟩
      have := steps_workers h
      intro h0
      rw [h0] at this
      simp [Walk.start] at this
      omega

theorem exists_outcome (bad : Node → Prop) (s : Shard) (stop : List Link → Bool) : ∃ r : EnumRun, ∃ m g, Steps bad stop m (Walk.start 32 s) g ∧ g.Finished ∧
    g.ret = some r.ret ∧ g.got = r.got ∧ (g.cancelled = true → g.ret = some .stopped) := by
  obtain ⟨k, g, h1, h2, h3⟩ := finishes_free (bad := bad) (stop := stop) (root := s) (n := 32) (by omega) (.refl _) (by simp [Walk.start])
  obtain ⟨r, hr⟩ := Option.ne_none_iff_exists'.mp h2.2.2
  exact ⟨⟨r, g.got⟩, k, g, h1, h2, hr, rfl, h3⟩

/-- Outcomes of undisturbed runs exist: such an environment can be made from any hash function, DAG
service and width. -/
theorem exists_env (H : Hash) (net : Net) (ref : Nat → Bool) (bad : Nat → Node → Prop) (width : Int) :
    ∃ env : Env, env.Real ∧ env.NoCancel ∧ env.H = H ∧ env.net = net ∧ env.ref = ref ∧ env.bad = bad ∧ env.width = width := by
  refine ⟨{ H := H, net := net, ref := ref, enum := fun k s stop => (exists_outcome (bad k) s stop).choose, bad := bad, cancel := fun _ => False, width := width },
    fun k s stop => ?_, fun _ => id, rfl, rfl, rfl, rfl, rfl⟩
  obtain ⟨m, g, h1, h2, h3, h4, h5⟩ := (exists_outcome (bad k) s stop).choose_spec
  exact ⟨m, g, h1, h2, h3, h4, fun h => .inl (h5 h)⟩

/-! ### Enumerations of a represented shard -/

variable {H : Hash} {lg : Nat}

/-- What the outcome of an enumeration says about the map. Used in specifications and proofs only. -/
structure EnumSpec (M : NMap) (stop : List Link → Bool) (bad : Prop) (cancel : Prop) (r : EnumRun) : Prop where
  part : ∃ more, Lists M (r.got ++ more)
  ended : r.ret = .ended → cancel ∨ Lists M r.got
  seen : r.ret = .ended → r.got = [] ∨ stop r.got = false
  stopped : r.ret = .stopped → stop r.got = true
  some : r.ret = .stopped → r.got ≠ []
  err : ∀ e, r.ret = .err e → bad ∨ cancel

theorem walk_spec (hp : HP H lg) {b : Builder} {cs : List Kid} {c : Hamt.Cfg} {M : NMap} (hi : Inv H lg b cs c M) {m n : Nat} {g : Walk} {r : EnumRun} {cancel : Prop}
    (h : Steps bad stop m (Walk.start n c.shard) g) (hf : g.Finished) (hret : g.ret = some r.ret) (hgot : g.got = r.got)
    (hc : g.cancelled = true → g.ret = some .stopped ∨ cancel) : EnumSpec M stop (∃ x, bad x) cancel r := by
  have hw := winv_steps h
  have hl := entries_lists hi.holds
  have hle := got_le h
  rw [rep_tally hp _ _ _ _ _ _ hi.holds.wf hi.rep, Multiset.coe_le] at hle
  have hpart : ∃ more, Lists M (r.got ++ more) := by
    rw [← hgot]
    obtain ⟨l, hl1, hl2⟩ := hle
    obtain ⟨more, hmore⟩ := hl2.exists_perm_append
    exact ⟨more, lists_perm hl ((hl1.symm.append_right more).trans hmore.symm)⟩
  refine ⟨hpart, ?_, ?_, ?_, fun he => by rw [← hgot]; exact stopped_some h (by rw [hret, he]), ?_⟩
  · intro he
    by_cases hcc : g.cancelled = true
    · rcases hc hcc with h1 | h1
      · rw [hret, he] at h1; cases h1
      · exact .inl h1
    · right
      obtain ⟨_, _, h3⟩ := finished_complete h hf (by simpa using hcc) (fun e h' => by rw [hret, he] at h'; cases h')
      rw [← hgot]
      refine lists_perm hl (hle.perm_of_length_le ?_)
      have hsub : ((entriesL cs).map elink) ⊆ g.got := by
        intro v hv
        obtain ⟨e, he, rfl⟩ := List.mem_map.mp hv
        obtain ⟨t, ht, he'⟩ := rep_entry hp _ _ _ _ _ _ hi.holds.wf hi.rep e he
        exact h3 t _ ht he'
      exact (hl.1.of_map.subperm hsub).length_le
  · intro he
    rw [← hgot]
    exact unstopped_steps h (by rw [hret, he]; simp)
  · intro he
    rw [← hgot]
    exact (hw.ctl.retStop (by rw [hret, he])).2
  · intro e he
    rcases hw.caused.gerr (by rw [hw.ctl.retErr e (by rw [hret, he])]; rfl) with h' | ⟨p, hp', hf'⟩
    · rcases hc h' with h1 | h1
      · rw [hret, he] at h1; cases h1
      · exact .inr h1
    · left
      by_contra hb
      exact repPart_ok hp (bad := bad) (fun x _ hx => hb ⟨x, hx⟩) (repPart_of hp hi.holds.wf hi.rep hp') hf'

theorem enum_spec {env : Env} (hr : env.Real) (hp : HP H lg) {b : Builder} {cs : List Kid} {c : Hamt.Cfg} {M : NMap} (hi : Inv H lg b cs c M) (k : Nat)
    (stop : List Link → Bool) : EnumSpec M stop (∃ x, env.bad k x) (env.cancel k) (env.enum k c.shard stop) := by
  obtain ⟨m, g, h1, h2, h3, h4, h5⟩ := hr k c.shard stop
  exact walk_spec hp hi h1 h2 h3 h4 h5

end Unixfs.Dir
