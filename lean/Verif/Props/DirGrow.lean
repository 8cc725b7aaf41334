import Verif.Dir.Grow
import Verif.Props.Dir

/-!
# C105: a sharded directory that does not shrink is not enumerated

The definitions in this file belong to statements; they model no code.
-/

namespace Unixfs.Props
open Unixfs.Hamt hiding exec execAll results NoEmptyName lastWrite Cfg
open Unixfs.Dir

variable {env : Env} {lg : Nat} {data : Bytes} {ls : List Link} {b : Builder} {d : Basic} {thr : Int}

/-- C105: a directory is loaded as a HAMT after any history, and calls that ask for no list of entries are
made on it. As long as the size of the directory stays at or above its size when it was loaded, by three
for every entry that was replaced or removed since, no call enumerates the entries, every call fetches at
most `2 * (64 / lg) + 1` blocks, and the directory stays a HAMT. Any fetch and any addition to the DAG
service may fail. Missing: the three per replaced entry, without which it does not hold (`C105_violated`). -/
theorem C105_no_enumeration_partial (hv : env.Valid lg) (hr : env.Real) (hd : newDirectoryFromNode (.proto data ls b) = .ok (.basic d))
    (hu : (ls.map Link.name).Nodup) (hne : [] ∉ ls.map Link.name) {ops ops' : List DOp} (hn : NoEmptyName ops) (hn' : NoEmptyName ops') (hs : ∀ op ∈ ops', op.Single)
    {c : Cfg} (hload : exec env .reload (execAll env ops (start (.basic d) thr)) = (.done, c)) {h0 : HamtDir} (hh : c.dir = .hamt h0)
    {M : NMap} (hM : M = mapAfter env (mapOf ls) ops (start (.basic d) thr)) {ls0 : List Link} (hl : Lists M ls0)
    (hgrow : ∀ ops1 op ops2, ops' = ops1 ++ op :: ops2 → op.target ≠ none → ∀ ls1, Lists (mapAfter env M ops1 c) ls1 →
      (total ls0 : Int) + 3 * (replaced env M ops1 c : Nat) ≤ total ls1 + sizeDelta (mapAfter env M ops1 c) op)
    {ops1 ops2 : List DOp} {op : DOp} (he : ops' = ops1 ++ op :: ops2) {c1 c2 : Cfg} (h1 : c1 = execAll env ops1 c) (h2 : c2 = (exec env op c1).2) :
    c1.k = c.k ∧ c2.k = c.k ∧ c2.t ≤ c1.t + (2 * (64 / lg) + 1) ∧ ∃ h, c2.dir = .hamt h := by
  obtain ⟨g1, _, _⟩ := loaded_inv hd hu
  have hi0 : DInv env (· = lg) none (start (.basic d) thr).dir (start (.basic d) thr).st (mapOf ls) := ⟨mapOf_empty hne, g1, by simp [Plain]⟩
  obtain ⟨M1, i1, i2⟩ := execAll_dspec (W := (· = lg)) (bo := none) hr rfl hv.hp hv.width (by simp) ops hi0 hn (by simp)
  have hM1 := i2.after
  rw [← hM] at hM1
  subst hM1
  have hg := reload_growing i1 hload hh hl
  subst h1 h2 he
  obtain ⟨r1, r2, r3, r4⟩ := grow_run hv.hp hv.hash ops1 op ops2 0 c M1 hg hs hn' (by simpa using hgrow)
  exact ⟨r2, r1.trans r2, r3, r4⟩

/-- C105: in particular, adding new names, in any number, together with lookups, never enumerates. -/
theorem C105_new_names (hv : env.Valid lg) (hr : env.Real) (hd : newDirectoryFromNode (.proto data ls b) = .ok (.basic d))
    (hu : (ls.map Link.name).Nodup) (hne : [] ∉ ls.map Link.name) {ops ops' : List DOp} (hn : NoEmptyName ops) (hn' : NoEmptyName ops') (hs : ∀ op ∈ ops', op.Single)
    {c : Cfg} (hload : exec env .reload (execAll env ops (start (.basic d) thr)) = (.done, c)) {h0 : HamtDir} (hh : c.dir = .hamt h0)
    {M : NMap} (hM : M = mapAfter env (mapOf ls) ops (start (.basic d) thr))
    (hnew : ∀ ops1 op ops2, ops' = ops1 ++ op :: ops2 → ∀ name, op.target = some name → (∃ nd, op = .add name nd) ∧ mapAfter env M ops1 c name = none)
    {ops1 ops2 : List DOp} {op : DOp} (he : ops' = ops1 ++ op :: ops2) {c1 c2 : Cfg} (h1 : c1 = execAll env ops1 c) (h2 : c2 = (exec env op c1).2) :
    c1.k = c.k ∧ c2.k = c.k ∧ c2.t ≤ c1.t + (2 * (64 / lg) + 1) ∧ ∃ h, c2.dir = .hamt h := by
  obtain ⟨g1, _, _⟩ := loaded_inv hd hu
  have hi0 : DInv env (· = lg) none (start (.basic d) thr).dir (start (.basic d) thr).st (mapOf ls) := ⟨mapOf_empty hne, g1, by simp [Plain]⟩
  obtain ⟨M1, i1, i2⟩ := execAll_dspec (W := (· = lg)) (bo := none) hr rfl hv.hp hv.width (by simp) ops hi0 hn (by simp)
  have hM1 := i2.after
  rw [← hM] at hM1
  obtain ⟨ls0, hl⟩ : ∃ ls0, Lists M ls0 := by
    obtain ⟨_, i1⟩ := i1
    rw [← hM1]
    cases hc : (execAll env ops (start (.basic d) thr)).dir with
    | basic d' => rw [hc] at i1; exact ⟨_, i1.1.lists⟩
    | hamt h => rw [hc] at i1; obtain ⟨_, _, _, i1⟩ := i1; exact i1.finite
  refine C105_no_enumeration_partial hv hr hd hu hne hn hn' hs hload hh hM hl ?_ he h1 h2
  intro a o y hay ht ls1 hls1
  obtain ⟨name, hname⟩ := Option.ne_none_iff_exists'.mp ht
  obtain ⟨⟨nd, rfl⟩, hnone⟩ := hnew a o y hay name hname
  obtain ⟨q1, q2⟩ := new_names_grow env a c M ls0 hl (fun x o' y' hx nm hnm => hnew x o' (y' ++ .add name nd :: y) (by rw [hay, hx]; simp) nm hnm)
  have := q2 ls1 hls1
  rw [q1, sizeDelta, entrySize, hnone]
  push_cast
  omega

/-- The entries of the example. -/
def exTwoAdds : List DOp := [.add [0x10] (exNd 1), .add [0x11] (exNd 2)]

/-- The state after loading them. -/
@[irreducible] def exTwoLoaded : Cfg := execAll exEnv exTwo (start newDirectory 50)

theorem pair_eq {α β : Type} {x : α × β} {a : α} {b : β} (h1 : x.1 = a) (h2 : x.2 = b) : x = (a, b) := by
  rw [← h1, ← h2]

theorem execAll_one (env : Env) (op : DOp) (c : Cfg) : execAll env [op] c = (exec env op c).2 := rfl
theorem results_one (env : Env) (op : DOp) (c : Cfg) : results env [op] c = [(exec env op c).1] := rfl

theorem exTwoAdds_quiet : quiet exEnv exTwoAdds (start newDirectory 50) = true := by decide +kernel

theorem exTwoAdds_done : (exec exEnv .reload (execAll exEnv exTwoAdds (start newDirectory 50))).1 = .done := by decide +kernel

theorem exTwoAdds_load : (exec exEnv .reload (execAll exEnv exTwoAdds (start newDirectory 50))).2 = exTwoLoaded := by
  rw [exTwoLoaded, show exTwo = exTwoAdds ++ [.reload] from rfl, execAll_append, execAll_one]

theorem exTwoLoaded_hamt : ∃ h, exTwoLoaded.dir = .hamt h := view_none (by decide +kernel)

theorem exTwo_loaded (h : IsEx env) : exec env .reload (execAll env exTwoAdds (start newDirectory 50)) = (.done, exTwoLoaded) ∧ ∃ h, exTwoLoaded.dir = .hamt h := by
  obtain ⟨E, B, C, rfl⟩ := h
  refine ⟨?_, exTwoLoaded_hamt⟩
  rw [(execAll_congr (E := E) (B := B) (C := C) exTwoAdds _ exTwoAdds_quiet).1]
  have h := pair_eq exTwoAdds_done exTwoAdds_load
  generalize execAll exEnv exTwoAdds (start newDirectory 50) = c at h ⊢
  exact h

theorem mapAfter_quiet {E : Nat → Shard → (List Link → Bool) → EnumRun} {B : Nat → Node → Prop} {C : Nat → Prop} {M : NMap} {ops : List DOp} {c : Cfg} (h : quiet exEnv ops c = true) :
    mapAfter (exEnv.other E B C) M ops c = mapAfter exEnv M ops c := by
  funext k
  rw [mapAfter, mapAfter, (execAll_congr ops c h).2]

/-- Two more entries and a lookup. -/
def exMore : List DOp := [.add [0x12] (exNd 3), .find [0x10], .add [0x13, 1] (exNd 4)]

/-- C105: the hypotheses are met: two entries, loaded, then two more. -/
example : ∃ env c, env.Valid 3 ∧ env.Real ∧ NoEmptyName exTwoAdds ∧ NoEmptyName exMore ∧ (∀ op ∈ exMore, op.Single) ∧
    exec env .reload (execAll env exTwoAdds (start newDirectory 50)) = (.done, c) ∧ (∃ h, c.dir = .hamt h) ∧
    (∀ ops1 op ops2, exMore = ops1 ++ op :: ops2 → ∀ name, op.target = some name → (∃ nd, op = .add name nd) ∧
      mapAfter env (mapAfter env (mapOf []) exTwoAdds (start newDirectory 50)) ops1 c name = none) ∧
    results env exMore c = [.done, .node (exNd 1), .done] := by
  obtain ⟨env, hx, hr, hw⟩ := exists_ex
  obtain ⟨l1, l2⟩ := exTwo_loaded hx
  refine ⟨env, exTwoLoaded, hx.valid, hr, by simp [NoEmptyName, exTwoAdds, DOp.target], by simp [NoEmptyName, exMore, DOp.target], by simp [exMore, DOp.Single], l1, l2, ?_, ?_⟩
  · obtain ⟨E, B, C, rfl⟩ := hx
    intro ops1 op ops2 he name hn
    rw [mapAfter_quiet (ops := exTwoAdds) (by decide +kernel)]
    match ops1, he with
    | [], he =>
      cases he; cases hn
      rw [mapAfter_quiet rfl]
      exact ⟨⟨_, rfl⟩, Option.isNone_iff_eq_none.mp (by decide +kernel)⟩
    | [_], he =>
      cases he; cases hn
    | [_, _], he =>
      cases he; cases hn
      rw [mapAfter_quiet (by decide +kernel)]
      exact ⟨⟨_, rfl⟩, Option.isNone_iff_eq_none.mp (by decide +kernel)⟩
    | _ :: _ :: _ :: l, he =>
      simp [exMore] at he
  · obtain ⟨E, B, C, rfl⟩ := hx
    rw [(execAll_congr exMore _ (by decide +kernel)).2]
    decide +kernel

/-- C105 without the three per replaced entry is violated: storing an entry that is there already, with
the same node, twice, leaves the directory as it is; the second call enumerates it (with any result),
since the first one took the index digits in the name of the old link off the estimate. -/
theorem C105_violated (h : IsEx env) : ∃ c, exec env .reload (execAll env exTwoAdds (start newDirectory 50)) = (.done, c) ∧
    (exec env (.add [0x10] (exNd 1)) c).1 = .done ∧ (exec env (.add [0x10] (exNd 1)) c).2.k = c.k ∧
    (let M := mapAfter env (mapOf []) exTwoAdds (start newDirectory 50)
     mapAfter env M [.add [0x10] (exNd 1)] c = M ∧ sizeDelta M (.add [0x10] (exNd 1)) = 0) ∧
    (exec env (.add [0x10] (exNd 1)) (exec env (.add [0x10] (exNd 1)) c).2).2.k = c.k + 1 := by
  refine ⟨exTwoLoaded, (exTwo_loaded h).1, ?_⟩
  obtain ⟨E, B, C, rfl⟩ := h
  have hq : quiet exEnv [.add [0x10] (exNd 1)] exTwoLoaded = true := by decide +kernel
  obtain ⟨h1, h2⟩ := execAll_congr (E := E) (B := B) (C := C) _ _ hq
  have h3 : (exec (exEnv.other E B C) (.add [0x10] (exNd 1)) exTwoLoaded).2 = (exec exEnv (.add [0x10] (exNd 1)) exTwoLoaded).2 := by rwa [execAll_one, execAll_one] at h1
  have h4 : (exec (exEnv.other E B C) (.add [0x10] (exNd 1)) exTwoLoaded).1 = (exec exEnv (.add [0x10] (exNd 1)) exTwoLoaded).1 := by
    rw [results_one, results_one] at h2
    exact (List.cons.inj h2).1
  rw [h3, h4]
  refine ⟨by decide +kernel, by decide +kernel, ?_, ?_⟩
  · dsimp only
    rw [mapAfter_quiet hq, mapAfter_quiet (ops := exTwoAdds) (by decide +kernel)]
    refine ⟨?_, by decide +kernel⟩
    funext k
    rw [mapAfter, show results exEnv [.add [0x10] (exNd 1)] exTwoLoaded = [.done] by decide +kernel]
    simp only [List.zip_cons_cons, List.zip_nil_left, lastWrite]
    by_cases hk : [0x10] = k
    · subst hk; rw [if_pos rfl]; decide +kernel
    · rw [if_neg hk]
  · have h5 : shrinks exEnv (exec exEnv (.add [0x10] (exNd 1)) exTwoLoaded).2 [0x10] (exNd 1) = true := by decide +kernel
    rw [add_enumerates (env := exEnv.other E B C) h5]
    decide +kernel

end Unixfs.Props
