import Verif.Dir.Hist
import Verif.Props.Walk

/-!
# Directories: C46–C50, C66

Histories are lists of calls on a `Directory`, run in an environment `env`: which fetches fail, which
additions are refused, which run of the parallel enumeration takes place, what is cancelled.
`env.Real` says that enumerations are runs of the code (any schedule), `env.Valid lg` that the hash
has 64 bits and the width of new shards is accepted. A history starts from a directory loaded from a
node `proto data ls b`; the empty directory is the case `ls = []` (`fresh_loaded`).
-/

namespace Unixfs.Props
open Unixfs.Hamt hiding exec execAll results NoEmptyName lastWrite Cfg
open Unixfs.Dir

variable {env env' : Env} {lg : Nat} {data : Bytes} {ls : List Link} {b : Builder} {d : Basic} {ops : List DOp} {thr : Int}

/-- `NewDirectory` is the directory loaded from an empty node. -/
theorem fresh_loaded : newDirectoryFromNode (.proto folderPBData [] .v0) = .ok newDirectory := by
  rw [newDirectoryFromNode, folder_isDir.choose_spec.1]
  dsimp only
  rw [if_pos folder_isDir.choose_spec.2]
  rfl

/-- The links and the estimate of a basic directory, for the examples. -/
def view : Dir → Option (List Link × Int)
  | .basic d => some (d.links, d.estimatedSize)
  | .hamt _ => none

theorem view_some {d : Dir} {l : List Link} {n : Int} (h : view d = some (l, n)) : ∃ d', d = .basic d' ∧ d'.links = l ∧ d'.estimatedSize = n := by
  cases d with
  | basic d' => simp only [view, Option.some.injEq, Prod.mk.injEq] at h; exact ⟨d', rfl, h⟩
  | hamt h' => cases h

theorem view_none {d : Dir} (h : view d = none) : ∃ h', d = .hamt h' := by
  cases d with
  | basic d' => cases h
  | hamt h' => exact ⟨h', rfl⟩

/-! Concrete directories for the hypotheses below. -/

/-- An environment in which everything works, but for the enumerations, which this one leaves open. -/
def exEnv : Env := { H := H0, net := goodNet, ref := goodAdd, enum := fun _ _ _ => ⟨.ended, []⟩, bad := fun _ _ => False, cancel := fun _ => False, width := 8 }

/-- With real enumerations, whatever they are. -/
def IsEx (env : Env) : Prop := ∃ E B C, env = exEnv.other E B C

theorem IsEx.valid (h : IsEx env) : env.Valid 3 := by
  obtain ⟨E, B, C, rfl⟩ := h
  exact ⟨H0_length, rfl, _, exS_new⟩

/-- Such environments with real enumerations exist. -/
theorem exists_ex : ∃ env, IsEx env ∧ env.Real ∧ env.Works := by
  obtain ⟨env, h1, h2, h3, h4, h5, h6, h7⟩ := exists_env H0 goodNet goodAdd (fun _ _ => False) 8
  refine ⟨env, ⟨env.enum, env.bad, env.cancel, ?_⟩, h1, ⟨by rw [h4]; intros; rfl, by rw [h5]; intros; rfl, by rw [h6]; simp, h2⟩⟩
  cases env
  simp only at h3 h4 h5 h6 h7
  subst h3 h4 h5 h6 h7
  rfl

/-! ### C46: `BasicDirectory` -/

/-- C46: a directory that is never sharded (threshold 0) holds, after any history with any names, the
entries that the last successful calls left, each once, and its estimate is the sum over the entries
of name length and CID length. -/
theorem C46_basic_map (hd : newDirectoryFromNode (.proto data ls b) = .ok (.basic d)) (hu : (ls.map Link.name).Nodup) (ht : ∀ op ∈ ops, ∀ n, op ≠ .setThreshold n) :
    ∃ d', (execAll env ops (start (.basic d) 0)).dir = .basic d' ∧ Lists (mapAfter env (mapOf ls) ops (start (.basic d) 0)) d'.links ∧
      d'.estimatedSize = total d'.links := by
  obtain ⟨d', M', h1, h2, h3⟩ := execAll_basic (env := env) ops (c := start (.basic d) 0) rfl (loaded_inv hd hu).1 rfl ht
  refine ⟨d', h1, ?_, h2.est⟩
  rw [← h3.after]; exact h2.lists

/-- C46: what the calls themselves return. -/
theorem C46_basic_run (hd : newDirectoryFromNode (.proto data ls b) = .ok (.basic d)) (hu : (ls.map Link.name).Nodup) (ht : ∀ op ∈ ops, ∀ n, op ≠ .setThreshold n) :
    ∃ M, DRun env (fun _ _ => False) (start (.basic d) 0) (mapOf ls) ops M := by
  obtain ⟨_, M', _, _, h3⟩ := execAll_basic (env := env) ops (c := start (.basic d) 0) rfl (loaded_inv hd hu).1 rfl ht
  exact ⟨M', h3⟩

/-- C46: `Find` after the history. -/
theorem C46_basic_find (hd : newDirectoryFromNode (.proto data ls b) = .ok (.basic d)) (hu : (ls.map Link.name).Nodup) (ht : ∀ op ∈ ops, ∀ n, op ≠ .setThreshold n)
    (hnet : ∀ t x, env'.net t x = true) (k : Bytes) :
    (exec env' (.find k) (execAll env ops (start (.basic d) 0))).1
      = match mapAfter env (mapOf ls) ops (start (.basic d) 0) k with | some v => .node v.2 | none => .fail .notExist := by
  obtain ⟨d', M', h1, h2, h3⟩ := execAll_basic (env := env) ops (c := start (.basic d) 0) rfl (loaded_inv hd hu).1 rfl ht
  rw [← h3.after]
  simp only [exec, find, h1, Basic.find, bget h2]
  cases hm : M' k with
  | none => rfl
  | some v => simp [hnet, entry, Link.target]

/-- C46: the estimate is also right in a directory that may be sharded, whenever it is basic. -/
theorem C46_dynamic (hv : env.Valid lg) (hr : env.Real) (hd : newDirectoryFromNode (.proto data ls b) = .ok (.basic d)) (hu : (ls.map Link.name).Nodup)
    (hne : [] ∉ ls.map Link.name) (hn : NoEmptyName ops) {d' : Basic} (he : (execAll env ops (start (.basic d) thr)).dir = .basic d') :
    Lists (mapAfter env (mapOf ls) ops (start (.basic d) thr)) d'.links ∧ d'.estimatedSize = total d'.links := by
  obtain ⟨M', h1, h2⟩ := execAll_dspec (W := (· = lg)) (bo := none) hr rfl hv.hp hv.width (by simp) ops (c := start (.basic d) thr) ⟨mapOf_empty hne, (loaded_inv hd hu).1, by simp [Plain]⟩ hn (by simp)
  obtain ⟨_, h1⟩ := h1
  rw [he] at h1
  rw [← h2.after]
  exact ⟨h1.1.lists, h1.1.est⟩

/-- A history with a replacement, a removal, a removal of an absent name and the empty name. -/
def exDOps : List DOp := [.add [1] (exNd 1), .add [2, 2] (exNd 2), .add [] (exNd 9), .add [1] (exNd 3), .remove [2, 2], .remove [7]]

/-- C46: the hypotheses are met by this history on a fresh directory. -/
example : (∀ op ∈ exDOps, ∀ n, op ≠ .setThreshold n) ∧
    view (execAll exEnv exDOps (start newDirectory 0)).dir = some ([.mk [] 1 (exNd 9), .mk [1] 1 (exNd 3)], 69) := by
  refine ⟨by simp [exDOps], ?_⟩
  decide +kernel

/-- C46 needs unique names: loaded from a node with two links of the same name, the estimate is wrong
after one removal. -/
theorem C46_duplicates : ∃ (ls : List Link) (d : Basic), newDirectoryFromNode (.proto folderPBData ls .v0) = .ok (.basic d) ∧
    ∃ d', (execAll exEnv [.remove [1]] (start (.basic d) 0)).dir = .basic d' ∧ d'.links = [] ∧ d'.estimatedSize ≠ total d'.links := by
  have hd : newDirectoryFromNode (.proto folderPBData [.mk [1] 3 (exNd 1), .mk [1] 3 (exNd 2)] .v0) = .ok (.basic (.ofNode folderPBData [.mk [1] 3 (exNd 1), .mk [1] 3 (exNd 2)] .v0)) := by
    rw [newDirectoryFromNode, folder_isDir.choose_spec.1]
    dsimp only
    rw [if_pos folder_isDir.choose_spec.2]
  refine ⟨_, _, hd, ?_⟩
  obtain ⟨d', h1, h2, h3⟩ := view_some (show view (execAll exEnv [.remove [1]] (start (.basic (.ofNode folderPBData [.mk [1] 3 (exNd 1), .mk [1] 3 (exNd 2)] .v0)) 0)).dir = some ([], 35) by decide +kernel)
  exact ⟨d', h1, h2, by rw [h2, h3]; decide⟩

/-! ### C47: `DynamicDirectory` -/

/-- C47: in any history of a directory, with any threshold (and any changes of it), any failures, any
schedules of the enumerations and any cancellations, every call does what it must do to a plain map,
across all switches between the two forms. Names are not empty (see `C47_empty_name_lost`). -/
theorem C47_finite_map (hv : env.Valid lg) (hr : env.Real) (hd : newDirectoryFromNode (.proto data ls b) = .ok (.basic d)) (hu : (ls.map Link.name).Nodup)
    (hne : [] ∉ ls.map Link.name) (hn : NoEmptyName ops) : ∃ M, DRun env (Collide env.H lg) (start (.basic d) thr) (mapOf ls) ops M := by
  obtain ⟨M', _, h2⟩ := execAll_dspec (W := (· = lg)) (bo := none) hr rfl hv.hp hv.width (by simp) ops (c := start (.basic d) thr) ⟨mapOf_empty hne, (loaded_inv hd hu).1, by simp [Plain]⟩ hn (by simp)
  exact ⟨M', h2.mono (fun _ _ => coll_iff)⟩

/-- C47: after any history, with any failures in it, `Find` returns what the last successful update of
the name left, and `ErrNotExist` if there is none. -/
theorem C47_find_last (hv : env.Valid lg) (hr : env.Real) (hd : newDirectoryFromNode (.proto data ls b) = .ok (.basic d)) (hu : (ls.map Link.name).Nodup)
    (hne : [] ∉ ls.map Link.name) (hn : NoEmptyName ops) (hH : env'.H = env.H) (hw : env'.Works) (k : Bytes) :
    (exec env' (.find k) (execAll env ops (start (.basic d) thr))).1
      = match mapAfter env (mapOf ls) ops (start (.basic d) thr) k with | some v => .node v.2 | none => .fail .notExist := by
  obtain ⟨M', h1, h2⟩ := execAll_dspec (W := (· = lg)) (bo := none) hr rfl hv.hp hv.width (by simp) ops (c := start (.basic d) thr) ⟨mapOf_empty hne, (loaded_inv hd hu).1, by simp [Plain]⟩ hn (by simp)
  rw [← h2.after]
  have h3 : DInv env' (· = lg) none (execAll env ops (start (.basic d) thr)).dir (execAll env ops (start (.basic d) thr)).st M' := by
    rw [DInv.eq_def, hH]; exact h1
  obtain ⟨M'', _, hs, _⟩ := find_spec h3 k
  generalize exec env' (.find k) (execAll env ops (start (.basic d) thr)) = R at hs
  obtain ⟨r, c'⟩ := R
  cases hs with
  | find h => rw [h]
  | findAbsent h => rw [h]
  | findFail h =>
    cases h with
    | fetch h => obtain ⟨u, x, _, _, h⟩ := h; rw [hw.net] at h; cases h
    | add h => obtain ⟨u, _, _, h⟩ := h; rw [hw.ref] at h; cases h
    | enum h1 h2 h => rcases h with ⟨x, h⟩ | h; exacts [absurd h (hw.bad _ _), absurd h (hw.cancel _)]

/-- C47: after any history, `Links` lists the current entries, each once. -/
theorem C47_links_last (hv : env.Valid lg) (hr : env.Real) (hd : newDirectoryFromNode (.proto data ls b) = .ok (.basic d)) (hu : (ls.map Link.name).Nodup)
    (hne : [] ∉ ls.map Link.name) (hn : NoEmptyName ops) (hH : env'.H = env.H) (hw : env'.Works) (hr' : env'.Real) :
    ∃ l, (exec env' .links (execAll env ops (start (.basic d) thr))).1 = .list l none ∧ Lists (mapAfter env (mapOf ls) ops (start (.basic d) thr)) l := by
  obtain ⟨M', h1, h2⟩ := execAll_dspec (W := (· = lg)) (bo := none) hr rfl hv.hp hv.width (by simp) ops (c := start (.basic d) thr) ⟨mapOf_empty hne, (loaded_inv hd hu).1, by simp [Plain]⟩ hn (by simp)
  rw [← h2.after]
  have h3 : DInv env' (· = lg) none (execAll env ops (start (.basic d) thr)).dir (execAll env ops (start (.basic d) thr)).st M' := by
    rw [DInv.eq_def, hH]; exact h1
  obtain ⟨M'', _, hs, _⟩ := links_spec hr' h3
  generalize exec env' .links (execAll env ops (start (.basic d) thr)) = R at hs
  obtain ⟨r, c'⟩ := R
  cases hs with
  | links h => exact ⟨_, rfl, h⟩
  | linksCancelled h hc => obtain ⟨j, _, _, hc⟩ := hc; exact absurd hc (hw.cancel _)
  | linksFail h hx =>
    cases hx with
    | fetch h => obtain ⟨u, x, _, _, h⟩ := h; rw [hw.net] at h; cases h
    | add h => obtain ⟨u, _, _, h⟩ := h; rw [hw.ref] at h; cases h
    | enum h1 h2 h => rcases h with ⟨x, h⟩ | h; exacts [absurd h (hw.bad _ _), absurd h (hw.cancel _)]

/-- A history that crosses the threshold 50 at the second addition. -/
def exCross : List DOp := [.add [0x10] (exNd 1), .add [0x11] (exNd 2), .add [0x11, 1] (exNd 3), .remove [0x11, 1]]

theorem exCross_quiet : quiet exEnv exCross (start newDirectory 50) = true := by decide +kernel

/-- C47: the hypotheses are met by this history, which ends in the other form. -/
example : ∃ env, env.Valid 3 ∧ env.Real ∧ NoEmptyName exCross ∧ ∃ h, (execAll env exCross (start newDirectory 50)).dir = .hamt h := by
  obtain ⟨env, ⟨E, B, C, he⟩, hr, _⟩ := exists_ex
  refine ⟨env, IsEx.valid ⟨E, B, C, he⟩, hr, by simp [NoEmptyName, exCross, DOp.target], ?_⟩
  rw [he, (execAll_congr (E := E) (B := B) (C := C) exCross _ exCross_quiet).1]
  exact view_none (by decide +kernel)

/-- The empty name, then enough to cross the threshold. -/
def exLost : List DOp := [.add [] (exNd 1), .add [0x10] (exNd 2), .find []]

theorem exLost_quiet : quiet exEnv exLost (start newDirectory 50) = true := by decide +kernel

/-- C47 does not hold for the empty name: an entry with the empty name, added with success, is lost
when the directory switches to a HAMT. -/
theorem C47_empty_name_lost (h : IsEx env) : results env exLost (start newDirectory 50) = [.done, .done, .fail .notExist] := by
  obtain ⟨E, B, C, rfl⟩ := h
  rw [(execAll_congr (E := E) (B := B) (C := C) exLost _ exLost_quiet).2]
  decide +kernel

/-! ### C48: a basic directory is below the threshold -/

/-- C48: on a directory that is below the positive threshold at first (a fresh one, say), after any
history in which no caller cancels, a basic directory is below the threshold. Missing: a cancellation
in the middle of an addition or removal can leave it above (`C48_cancelled_violated`). -/
theorem C48_basic_below_partial (hv : env.Valid lg) (hr : env.Real) (hc : env.NoCancel) (hd : newDirectoryFromNode (.proto data ls b) = .ok (.basic d))
    (hu : (ls.map Link.name).Nodup) (hne : [] ∉ ls.map Link.name) (hn : NoEmptyName ops) (ht : ∀ op ∈ ops, ∀ n, op ≠ .setThreshold n) (h0 : 0 < thr)
    (hb : (total ls : Int) < thr) {d' : Basic} (he : (execAll env ops (start (.basic d) thr)).dir = .basic d') :
    (total d'.links : Int) < thr ∧ d'.estimatedSize < thr := by
  obtain ⟨h1, h2, _⟩ := loaded_inv hd hu
  obtain ⟨M', h3, h4⟩ := execAll_small (W := (· = lg)) (bo := none) hr hc rfl hv.hp hv.width (by simp) ops (c := start (.basic d) thr) ⟨mapOf_empty hne, h1, by simp [Plain]⟩ hn (by simp) ht h0
    (by show (total d.links : Int) < thr; rw [h2]; exact hb)
  obtain ⟨_, h3⟩ := h3
  rw [he] at h3 h4
  have h5 : (total d'.links : Int) < thr := h4
  exact ⟨h5, by rw [h3.1.est]; exact h5⟩

/-- Add three entries, load the directory again, remove one. -/
def exReload : List DOp := [.add [0x10] (exNd 1), .add [0x11] (exNd 2), .add [0x11, 1] (exNd 3), .reload]

theorem exReload_quiet : quiet exEnv exReload (start newDirectory 50) = true := by decide +kernel

/-- An environment in which every enumeration is cancelled at once. -/
def exCancel : Env := exEnv.other (fun _ _ _ => ⟨.ended, []⟩) (fun _ _ => False) (fun _ => True)

theorem exCancel_real : exCancel.Real := by
  intro k s stop
  obtain ⟨m, g, h1, h2, h3, h4⟩ := cancelled_empty (fun _ => False) stop 32 s
  exact ⟨m, g, h1, h2, h3, h4, fun _ => .inr trivial⟩

/-- C48 is violated when the context of a removal is cancelled: with threshold 50 the directory becomes
basic with a size of 70. -/
theorem C48_cancelled_violated : exCancel.Valid 3 ∧ exCancel.Real ∧ NoEmptyName (exReload ++ [.remove [0x11, 1]]) ∧
    results exCancel (exReload ++ [.remove [0x11, 1]]) (start newDirectory 50) = [.done, .done, .done, .done, .done] ∧
    ∃ d', (execAll exCancel (exReload ++ [.remove [0x11, 1]]) (start newDirectory 50)).dir = .basic d' ∧ total d'.links = 70 := by
  refine ⟨IsEx.valid ⟨_, _, _, rfl⟩, exCancel_real, by simp [NoEmptyName, exReload, DOp.target], by decide +kernel, ?_⟩
  obtain ⟨d', h1, h2, _⟩ := view_some (show view (execAll exCancel (exReload ++ [.remove [0x11, 1]]) (start newDirectory 50)).dir
    = some ([.mk [0x10] 1 (exNd 1), .mk [0x11] 1 (exNd 2)], 70) by decide +kernel)
  exact ⟨d', h1, by rw [h2]; decide⟩

/-! ### C49: the decision does not depend on the schedule -/

/-- C49: on the HAMT of any history, `sizeBelowThreshold` gives, whenever it gives an answer, the one
that the sizes of the entries determine: for every schedule of the enumeration. -/
theorem C49_schedule_independent (hv : env.Valid lg) (hr : env.Real) (hd : newDirectoryFromNode (.proto data ls b) = .ok (.basic d)) (hu : (ls.map Link.name).Nodup)
    (hne : [] ∉ ls.map Link.name) (hn : NoEmptyName ops) {h : HamtDir} (he : (execAll env ops (start (.basic d) thr)).dir = .hamt h)
    (hH : env'.H = env.H) (hr' : env'.Real) (hc' : env'.NoCancel) {l : List Link} (hl : Lists (mapAfter env (mapOf ls) ops (start (.basic d) thr)) l)
    {limit change : Int} (h0 : limit ≠ 0) {k : Nat} {ans : Bool} (ha : (h.sizeBelowThreshold env' limit change k).1 = .ok ans) :
    ans = (l = [] ∨ (total l : Int) + change < limit : Bool) := by
  obtain ⟨M', h1, h2⟩ := execAll_dspec (W := (· = lg)) (bo := none) hr rfl hv.hp hv.width (by simp) ops (c := start (.basic d) thr) ⟨mapOf_empty hne, (loaded_inv hd hu).1, by simp [Plain]⟩ hn (by simp)
  rw [← h2.after] at hl
  obtain ⟨_, h1⟩ := h1
  rw [he] at h1
  obtain ⟨_, rfl, hp, b0, cs, hi, _⟩ := h1
  rw [← hH] at hp hi
  rw [HamtDir.sizeBelowThreshold, if_neg h0] at ha
  have hsp := enum_spec hr' hp hi k (fun got => HamtDir.partialSize got + change ≥ limit)
  dsimp only at hsp
  generalize env'.enum k h.shard (fun got => HamtDir.partialSize got + change ≥ limit) = R at ha hsp
  obtain ⟨ret, got⟩ := R
  cases ret with
  | err e => cases ha
  | stopped =>
    cases ha
    obtain ⟨more, hm⟩ := hsp.part
    have hperm := lists_unique hl hm
    have h1 := hsp.stopped rfl
    simp only [decide_eq_true_eq, partialSize_eq] at h1
    symm
    rw [decide_eq_false_iff_not]
    rintro (h | h)
    · rw [h] at hperm
      have := List.nil_perm.mp hperm
      exact hsp.some rfl (List.append_eq_nil_iff.mp this).1
    · rw [total_perm hperm, total_append] at h
      dsimp only at h
      omega
  | ended =>
    cases ha
    have hgot : Lists M' got := by
      rcases hsp.ended rfl with h | h
      · exact absurd h (hc' k)
      · exact h
    have hperm := lists_unique hl hgot
    symm
    rw [decide_eq_true_eq]
    rcases hsp.seen rfl with h | h
    · left
      change got = [] at h
      rw [h] at hperm
      exact List.perm_nil.mp hperm
    · right
      simp only [decide_eq_false_iff_not, partialSize_eq] at h
      rw [total_perm hperm]
      omega

/-- C49: if nothing fails, it does give an answer; two enumerations with different schedules give the
same one. -/
theorem C49_same_answer (hv : env.Valid lg) (hr : env.Real) (hd : newDirectoryFromNode (.proto data ls b) = .ok (.basic d)) (hu : (ls.map Link.name).Nodup)
    (hne : [] ∉ ls.map Link.name) (hn : NoEmptyName ops) {h : HamtDir} (he : (execAll env ops (start (.basic d) thr)).dir = .hamt h)
    {env1 env2 : Env} (hH1 : env1.H = env.H) (hH2 : env2.H = env.H) (hr1 : env1.Real) (hr2 : env2.Real) (hw1 : env1.Works) (hw2 : env2.Works)
    {limit change : Int} (h0 : limit ≠ 0) {k1 k2 : Nat} :
    ∃ ans, (h.sizeBelowThreshold env1 limit change k1).1 = .ok ans ∧ (h.sizeBelowThreshold env2 limit change k2).1 = .ok ans := by
  obtain ⟨M', h1, h2⟩ := execAll_dspec (W := (· = lg)) (bo := none) hr rfl hv.hp hv.width (by simp) ops (c := start (.basic d) thr) ⟨mapOf_empty hne, (loaded_inv hd hu).1, by simp [Plain]⟩ hn (by simp)
  obtain ⟨_, h1⟩ := h1
  rw [he] at h1
  obtain ⟨_, rfl, hp, hi⟩ := h1
  obtain ⟨l, hl⟩ := hi.finite
  rw [h2.after] at hl
  obtain ⟨b0, cs, hi, _⟩ := hi
  have key : ∀ (e : Env) (k : Nat), e.H = env.H → e.Real → e.Works → ∃ a, (h.sizeBelowThreshold e limit change k).1 = .ok a := by
    intro e k hH hre hw
    have hsp := enum_spec hre hp hi k (fun got => HamtDir.partialSize got + change ≥ limit)
    rw [HamtDir.sizeBelowThreshold, if_neg h0]
    dsimp only at hsp
    generalize e.enum k h.shard (fun got => HamtDir.partialSize got + change ≥ limit) = R at hsp ⊢
    obtain ⟨ret, got⟩ := R
    cases ret with
    | err x => rcases hsp.err x rfl with ⟨y, hy⟩ | hy; exacts [absurd hy (hw.bad _ _), absurd hy (hw.cancel _)]
    | stopped => exact ⟨_, rfl⟩
    | ended => exact ⟨_, rfl⟩
  obtain ⟨a1, ha1⟩ := key env1 k1 hH1 hr1 hw1
  obtain ⟨a2, ha2⟩ := key env2 k2 hH2 hr2 hw2
  refine ⟨a1, ha1, ?_⟩
  rw [ha2, C49_schedule_independent hv hr hd hu hne hn he hH1 hr1 hw1.cancel hl h0 ha1, C49_schedule_independent hv hr hd hu hne hn he hH2 hr2 hw2.cancel hl h0 ha2]

/-- C49: the hypotheses are met by the HAMT of `exCross`, whose two entries have size 70. -/
example : ∃ env h, env.Valid 3 ∧ env.Real ∧ env.Works ∧ (execAll env exCross (start newDirectory 50)).dir = .hamt h ∧
    (h.sizeBelowThreshold env 50 (-5) 0).1 = .ok false ∧ (h.sizeBelowThreshold env 50 (-30) 0).1 = .ok true := by
  obtain ⟨env, ⟨E, B, C, he⟩, hr, hw⟩ := exists_ex
  have hq := execAll_congr (E := E) (B := B) (C := C) exCross _ exCross_quiet
  rw [← he] at hq
  obtain ⟨h, hh⟩ : ∃ h, (execAll env exCross (start newDirectory 50)).dir = .hamt h := by rw [hq.1]; exact view_none (by decide +kernel)
  have hv : env.Valid 3 := IsEx.valid ⟨E, B, C, he⟩
  have hn : NoEmptyName exCross := by simp [NoEmptyName, exCross, DOp.target]
  have hl : Lists (mapAfter env (mapOf []) exCross (start newDirectory 50)) [.mk [0x10] 1 (exNd 1), .mk [0x11] 1 (exNd 2)] := by
    have hm : mapAfter env (mapOf []) exCross (start newDirectory 50) = mapOf [.mk [0x10] 1 (exNd 1), .mk [0x11] 1 (exNd 2)] := by
      funext k
      rw [mapAfter, hq.2, show results exEnv exCross (start newDirectory 50) = [.done, .done, .done, .done] by decide +kernel]
      simp only [exCross, List.zip_cons_cons, lastWrite, List.zip_nil_left]
      by_cases e1 : [0x11] = k
      · subst e1; decide
      · by_cases e2 : [0x10] = k
        · subst e2; decide
        · by_cases e3 : [0x11, 1] = k
          · subst e3; decide
          · simp [e1, e2, e3, mapOf, Link.name]
    rw [hm]
    exact lists_mapOf (by decide)
  refine ⟨env, h, hv, hr, hw, hh, ?_, ?_⟩
  · obtain ⟨a, ha, _⟩ := C49_same_answer (limit := 50) (change := -5) (k1 := 0) (k2 := 0) hv hr fresh_loaded (by simp) (by simp) hn hh rfl rfl hr hr hw hw (by decide)
    rw [ha, C49_schedule_independent hv hr fresh_loaded (by simp) (by simp) hn hh rfl hr hw.cancel hl (by decide) ha]
    decide
  · obtain ⟨a, ha, _⟩ := C49_same_answer (limit := 50) (change := -30) (k1 := 0) (k2 := 0) hv hr fresh_loaded (by simp) (by simp) hn hh rfl rfl hr hr hw hw (by decide)
    rw [ha, C49_schedule_independent hv hr fresh_loaded (by simp) (by simp) hn hh rfl hr hw.cancel hl (by decide) ha]
    decide

/-! ### C50: the form depends on the history -/

/-- Cross the threshold and go back below it. -/
def exBack : List DOp := [.add [0x10] (exNd 1), .add [0x11] (exNd 2), .remove [0x11]]
/-- The same entry without the detour. -/
def exStay : List DOp := [.add [0x10] (exNd 1)]

theorem exBack_quiet : quiet exEnv exBack (start newDirectory 50) = true := by decide +kernel
theorem exStay_quiet : quiet exEnv exStay (start newDirectory 50) = true := by decide +kernel

theorem getNode_other (env : Env) (E B C) (c : Cfg) : exec (env.other E B C) .getNode c = exec env .getNode c := rfl

/-- C50 is violated: of two directories with the same single entry of size 35 and threshold 50, one
is a HAMT and the other is basic, and their nodes differ. -/
theorem C50_violated (h : IsEx env) :
    mapAfter env (mapOf []) exBack (start newDirectory 50) = mapAfter env (mapOf []) exStay (start newDirectory 50) ∧
    (∃ h, (execAll env exBack (start newDirectory 50)).dir = .hamt h) ∧
    (∃ d, (execAll env exStay (start newDirectory 50)).dir = .basic d ∧ total d.links = 35) ∧
    (exec env .getNode (execAll env exBack (start newDirectory 50))).1 ≠ (exec env .getNode (execAll env exStay (start newDirectory 50))).1 := by
  obtain ⟨E, B, C, rfl⟩ := h
  have h1 := execAll_congr (E := E) (B := B) (C := C) exBack _ exBack_quiet
  have h2 := execAll_congr (E := E) (B := B) (C := C) exStay _ exStay_quiet
  refine ⟨?_, ?_, ?_, ?_⟩
  · funext k
    rw [mapAfter, mapAfter, h1.2, h2.2, show results exEnv exBack (start newDirectory 50) = [.done, .done, .done] by decide +kernel,
      show results exEnv exStay (start newDirectory 50) = [.done] by decide +kernel]
    simp only [exBack, exStay, List.zip_cons_cons, lastWrite, List.zip_nil_left]
    by_cases e1 : [0x11] = k
    · subst e1; decide
    · simp [e1]
  · rw [h1.1]; exact view_none (by decide +kernel)
  · rw [h2.1]
    obtain ⟨d', h3, h4, _⟩ := view_some (show view (execAll exEnv exStay (start newDirectory 50)).dir = some ([.mk [0x10] 1 (exNd 1)], 35) by decide +kernel)
    exact ⟨d', h3, by rw [h4]; decide⟩
  · rw [h1.1, h2.1, getNode_other, getNode_other]
    decide +kernel

/-- C50, what holds: if since the directory was last loaded no entry was added and some entry was
removed with success, the directory is basic exactly if its entries are below the threshold. (No caller
cancels; a fetch or an enumeration may fail.) Missing: additions since the last load, after which the
code may leave a small directory in the HAMT form (`C50_violated`). -/
theorem C50_after_load_partial (hv : env.Valid lg) (hr : env.Real) (hc : env.NoCancel) (hd : newDirectoryFromNode (.proto data ls b) = .ok (.basic d))
    (hu : (ls.map Link.name).Nodup) (hne : [] ∉ ls.map Link.name) (h0 : 0 < thr) (hb : (total ls : Int) < thr) {ops1 ops2 : List DOp}
    (hn : NoEmptyName (ops1 ++ .reload :: ops2)) (ht : ∀ op ∈ ops1 ++ .reload :: ops2, ∀ n, op ≠ .setThreshold n) (ha : ∀ op ∈ ops2, ∀ name nd, op ≠ .add name nd)
    {c : Cfg} (hload : exec env .reload (execAll env ops1 (start (.basic d) thr)) = (.done, c))
    {name : Bytes} (hrem : (DOp.remove name, DRes.done) ∈ ops2.zip (results env ops2 c)) :
    ∃ l, Lists (mapAfter env (mapOf ls) (ops1 ++ .reload :: ops2) (start (.basic d) thr)) l ∧
      ((∃ d', (execAll env ops2 c).dir = .basic d') ↔ (total l : Int) < thr) := by
  obtain ⟨g1, g2, _⟩ := loaded_inv hd hu
  have hs0 : Small thr (.basic d) (mapOf ls) := by show (total d.links : Int) < thr; rw [g2]; exact hb
  have hi0 : DInv env (· = lg) none (start (.basic d) thr).dir (start (.basic d) thr).st (mapOf ls) := ⟨mapOf_empty hne, g1, by simp [Plain]⟩
  have hend : execAll env (ops1 ++ .reload :: ops2) (start (.basic d) thr) = execAll env ops2 c := by
    rw [execAll_append, execAll, hload]
  obtain ⟨M3, _, hsm⟩ := execAll_small (W := (· = lg)) (bo := none) hr hc rfl hv.hp hv.width (by simp) (ops1 ++ .reload :: ops2) hi0 hn (by simp) ht h0 hs0
  rw [hend] at hsm
  obtain ⟨M1, h1, h2⟩ := execAll_dspec (W := (· = lg)) (bo := none) hr rfl hv.hp hv.width (by simp) (ops1 ++ [.reload]) hi0 (fun o ho => hn o (by rcases List.mem_append.mp ho with h | h <;> simp_all)) (by simp)
  have hmid : execAll env (ops1 ++ [.reload]) (start (.basic d) thr) = c := by rw [execAll_append, execAll, hload, execAll]
  have hthr : c.thr = thr := by
    rw [← hmid]
    exact execAll_thr (ops1 ++ [.reload]) (start (.basic d) thr) (fun o ho => ht o (by rcases List.mem_append.mp ho with h | h <;> simp_all))
  rw [hmid] at h1
  obtain ⟨M2, h3, h4, h5⟩ := execAll_exact (W := (· = lg)) (bo := none) hr hc rfl hv.hp hv.width (by simp) thr h0 ops2 (c := c) False h1 (fun o ho => hn o (by simp [ho])) (by simp) (fun o ho => ht o (by simp [ho])) ha hthr
    (fun h hh => ⟨le_of_eq (reload_sc hload hh), False.elim⟩)
  have h6 := (h2.append (hmid ▸ h4)).after
  rw [List.append_assoc, List.singleton_append] at h6
  rw [← h6]
  obtain ⟨_, h3⟩ := h3
  cases hd' : (execAll env ops2 c).dir with
  | basic d' =>
    rw [hd'] at h3 hsm
    exact ⟨d'.links, h3.1.lists, fun _ => hsm, fun _ => ⟨d', rfl⟩⟩
  | hamt h =>
    rw [hd'] at h3
    obtain ⟨_, rfl, hp, hi⟩ := h3
    obtain ⟨l, hl⟩ := hi.finite
    have := h5 h hd' (.inr ⟨name, hrem⟩) l hl
    exact ⟨l, hl, by rintro ⟨_, h⟩; simp at h, fun h => by omega⟩

/-- Two entries, together over the threshold; then the directory is loaded again. -/
def exTwo : List DOp := [.add [0x10] (exNd 1), .add [0x11] (exNd 2), .reload]

theorem exTwo_quiet : quiet exEnv exTwo (start newDirectory 50) = true := by decide +kernel

/-- C48, C50: the hypotheses are met by a history that switches to a HAMT, is loaded again and switches
back at the removal of one entry, after an enumeration under any schedule. -/
theorem exTwo_back : ∃ env c, env.Valid 3 ∧ env.Real ∧ env.NoCancel ∧ NoEmptyName (exTwo ++ [.remove [0x11]]) ∧
    exec env .reload (execAll env [.add [0x10] (exNd 1), .add [0x11] (exNd 2)] (start newDirectory 50)) = (.done, c) ∧ (∃ h, c.dir = .hamt h) ∧
    (DOp.remove [0x11], DRes.done) ∈ [DOp.remove [0x11]].zip (results env [.remove [0x11]] c) ∧ ∃ d, (execAll env [.remove [0x11]] c).dir = .basic d := by
  obtain ⟨env, ⟨E, B, C, he⟩, hr, hw⟩ := exists_ex
  have hv : env.Valid 3 := IsEx.valid ⟨E, B, C, he⟩
  have hq := execAll_congr (E := E) (B := B) (C := C) exTwo _ exTwo_quiet
  rw [← he] at hq
  have hn : NoEmptyName (exTwo ++ [.remove [0x11]]) := by simp [NoEmptyName, exTwo, DOp.target]
  have hres : results env exTwo (start newDirectory 50) = [.done, .done, .done] := by rw [hq.2]; decide +kernel
  obtain ⟨c, hc⟩ : ∃ c, exec env .reload (execAll env [.add [0x10] (exNd 1), .add [0x11] (exNd 2)] (start newDirectory 50)) = (.done, c) := by
    rw [show exTwo = [.add [0x10] (exNd 1), .add [0x11] (exNd 2)] ++ [.reload] from rfl, results_append, results, results] at hres
    refine ⟨(exec env .reload (execAll env [.add [0x10] (exNd 1), .add [0x11] (exNd 2)] (start newDirectory 50))).2, ?_⟩
    simp only [results, List.cons_append, List.nil_append, List.cons.injEq] at hres
    exact Prod.ext hres.2.2.1 rfl
  have hmid : execAll env exTwo (start newDirectory 50) = c := by
    rw [show exTwo = [.add [0x10] (exNd 1), .add [0x11] (exNd 2)] ++ [.reload] from rfl, execAll_append, execAll, hc, execAll]
  have hrem : (exec env (.remove [0x11]) c).1 = .done := by
    obtain ⟨M, i1, i2⟩ := execAll_dspec (W := (· = 3)) (bo := none) hr rfl hv.hp hv.width (by simp) exTwo (c := start newDirectory 50)
      ⟨mapOf_empty (by simp), (loaded_inv fresh_loaded (by simp)).1, by simp [Plain]⟩ (fun o ho => hn o (by simp [ho])) (by simp)
    rw [hmid] at i1
    have hM : M [0x11] = some (1, exNd 2) := by rw [i2.after, mapAfter, hres]; decide
    obtain ⟨M', _, hs, _⟩ := exec_dspec (W := (· = 3)) (bo := none) hr rfl hv.hp hv.width (by simp) i1 (.remove [0x11]) (by simp [DOp.target]) (by simp)
    generalize exec env (.remove [0x11]) c = R at hs
    obtain ⟨r, c'⟩ := R
    cases hs with
    | remove h => rfl
    | removeAbsent h => rw [hM] at h; cases h
    | removeFail h =>
      cases h with
      | fetch h => obtain ⟨u, x, _, _, h⟩ := h; rw [hw.net] at h; cases h
      | add h => obtain ⟨u, _, _, h⟩ := h; rw [hw.ref] at h; cases h
      | enum h1 h2 h => rcases h with ⟨x, h⟩ | h; exacts [absurd h (hw.bad _ _), absurd h (hw.cancel _)]
  have hzip : (DOp.remove [0x11], DRes.done) ∈ [DOp.remove [0x11]].zip (results env [.remove [0x11]] c) := by simp [results, hrem]
  refine ⟨env, c, hv, hr, hw.cancel, hn, hc, ?_, hzip, ?_⟩
  · rw [← hmid, hq.1]; exact view_none (by decide +kernel)
  · obtain ⟨l, hl, h⟩ := C50_after_load_partial (thr := 50) hv hr hw.cancel fresh_loaded (by simp) (by simp) (by decide) (by decide) (ops1 := [.add [0x10] (exNd 1), .add [0x11] (exNd 2)])
      (ops2 := [.remove [0x11]]) hn (by simp) (by simp) hc hzip
    refine h.mpr ?_
    have hm : mapAfter env (mapOf []) ([.add [0x10] (exNd 1), .add [0x11] (exNd 2)] ++ .reload :: [.remove [0x11]]) (start newDirectory 50) = mapOf [.mk [0x10] 1 (exNd 1)] := by
      have hall : results env (exTwo ++ [.remove [0x11]]) (start newDirectory 50) = [.done, .done, .done, .done] := by
        rw [results_append, hres, hmid, results, hrem]; rfl
      funext k
      rw [mapAfter, show ([.add [0x10] (exNd 1), .add [0x11] (exNd 2)] ++ .reload :: [.remove [0x11]] : List DOp) = exTwo ++ [.remove [0x11]] from rfl, hall]
      simp only [exTwo, List.cons_append, List.nil_append, List.zip_cons_cons, lastWrite, List.zip_nil_left]
      by_cases e1 : [0x11] = k
      · subst e1; decide
      · by_cases e2 : [0x10] = k
        · subst e2; decide
        · simp [e1, e2, mapOf, Link.name]
    have hl2 : Lists (mapOf [.mk [0x10] 1 (exNd 1)]) [.mk [0x10] 1 (exNd 1)] := lists_mapOf (by decide)
    change Lists (mapAfter env (mapOf []) ([.add [0x10] (exNd 1), .add [0x11] (exNd 2)] ++ .reload :: [.remove [0x11]]) (start newDirectory 50)) l at hl
    rw [hm] at hl
    rw [total_perm (lists_unique hl hl2)]
    decide

/-! ### C66: equal entries in equal form give equal nodes -/

/-- C66: two fresh directories with the same CID builder, which hold the same entries after any two
histories, under any two thresholds, schedules and failures, and are both basic or both HAMTs, have the
same node, up to the order of links, which encoding makes the same. -/
theorem C66_same_node {env1 env2 : Env} (hv1 : env1.Valid lg) (hv2 : env2.Valid lg) (hH : env1.H = env2.H) (hr1 : env1.Real) (hr2 : env2.Real) {ops1 ops2 : List DOp}
    (hn1 : NoEmptyName ops1) (hn2 : NoEmptyName ops2) (hb1 : ∀ op ∈ ops1, ∀ b, op ≠ .setCidBuilder b) (hb2 : ∀ op ∈ ops2, ∀ b, op ≠ .setCidBuilder b)
    {bd : Option Builder} {thr1 thr2 : Int} {c1 c2 : Cfg} (h1 : c1 = execAll env1 (.setCidBuilder bd :: ops1) (start newDirectory thr1))
    (h2 : c2 = execAll env2 (.setCidBuilder bd :: ops2) (start newDirectory thr2))
    (hmap : mapAfter env1 (mapOf []) (.setCidBuilder bd :: ops1) (start newDirectory thr1) = mapAfter env2 (mapOf []) (.setCidBuilder bd :: ops2) (start newDirectory thr2))
    (hform : (∃ d, c1.dir = .basic d) ↔ (∃ d, c2.dir = .basic d)) (hw : env'.Works) :
    ∃ nd1 nd2, (exec env' .getNode c1).1 = .node nd1 ∧ (exec env' .getNode c2).1 = .node nd2 ∧ encoded nd1 = encoded nd2 := by
  have key : ∀ (e : Env) (ops : List DOp) (t : Int), e.Valid lg → e.Real → NoEmptyName ops → (∀ op ∈ ops, ∀ b, op ≠ .setCidBuilder b) →
      DInv e (· = lg) (some (pbBuilder bd)) (execAll e (.setCidBuilder bd :: ops) (start newDirectory t)).dir (execAll e (.setCidBuilder bd :: ops) (start newDirectory t)).st
        (mapAfter e (mapOf []) (.setCidBuilder bd :: ops) (start newDirectory t)) := by
    intro e ops t hv hr hn hb
    obtain ⟨g1, g2, g3, g4⟩ := loaded_inv fresh_loaded (by simp)
    obtain ⟨M', i1, i2⟩ := execAll_dspec (W := (· = lg)) (bo := some (pbBuilder bd)) hr rfl hv.hp hv.width
      (by intro b0 h; cases h; exact Dir.pbBuilder_fix bd) ops (c := (exec e (.setCidBuilder bd) (start newDirectory t)).2) (M := mapOf [])
      ⟨rfl, ⟨g1.lists, g1.est, g1.isDir⟩, by intro b0 h; cases h; exact ⟨rfl, rfl⟩⟩ hn (fun op ho bd' h => absurd h (hb op ho bd'))
    have := i2.after
    have h3 : mapAfter e (mapOf []) (.setCidBuilder bd :: ops) (start newDirectory t) = M' := by rw [this]; rfl
    rw [h3]
    exact i1
  have i1 := key env1 ops1 thr1 hv1 hr1 hn1 hb1
  have i2 := key env2 ops2 thr2 hv2 hr2 hn2 hb2
  rw [← h1, hmap] at i1
  rw [← h2] at i2
  generalize mapAfter env2 (mapOf []) (.setCidBuilder bd :: ops2) (start newDirectory thr2) = M at i1 i2
  clear h1 h2 hmap key
  obtain ⟨_, i1⟩ := i1
  obtain ⟨_, i2⟩ := i2
  cases e1 : c1.dir with
  | basic d1 =>
    obtain ⟨d2, e2⟩ := hform.mp ⟨d1, e1⟩
    rw [e1] at i1
    rw [e2] at i2
    refine ⟨d1.node, d2.node, by simp only [exec, getNode, e1], by simp only [exec, getNode, e2], ?_⟩
    obtain ⟨p1, p2⟩ := i1.2 _ rfl
    obtain ⟨q1, q2⟩ := i2.2 _ rfl
    rw [Basic.node, Basic.node, p1, p2, q1, q2]
    exact encoded_perm (lists_unique i1.1.lists i2.1.lists) i1.1.lists.1
  | hamt s1 =>
    cases e2 : c2.dir with
    | basic d2 => obtain ⟨d1, h⟩ := hform.mpr ⟨d2, e2⟩; rw [e1] at h; cases h
    | hamt s2 =>
      rw [e1] at i1
      rw [e2] at i2
      obtain ⟨_, rfl, hp, b1, cs1, j1, sh1⟩ := i1
      obtain ⟨_, rfl, _, b2, cs2, j2, sh2⟩ := i2
      obtain ⟨rfl, k1⟩ := sh1 _ rfl
      obtain ⟨rfl, k2⟩ := sh2 _ rfl
      rw [← hH] at j2
      have heq : cs1 = cs2 := by
        refine canon_unique _ (levels _) 0 anyKey cs1 cs2 j1.holds.wf j2.holds.wf k1 k2 ?_
        intro k _
        rw [← j1.holds.map, ← j2.holds.map]
      subst heq
      obtain ⟨he, _⟩ := exec_det hp j1 j2 .node (by simp [Op.target])
      obtain ⟨_, _, _, _, _, _, hst⟩ := exec_spec hp goodNet goodAdd j1 .node (by simp [Op.target])
      have hg : env'.ref = goodAdd := funext hw.ref
      simp only [exec, getNode, e1, e2, hg]
      simp only [Hamt.exec] at he hst
      revert he hst
      generalize s1.shard.toNode goodAdd c1.st = o1
      generalize s2.shard.toNode goodAdd c2.st = o2
      obtain ⟨r1, st1⟩ := o1
      obtain ⟨r2, st2⟩ := o2
      intro he hst
      cases r1 with
      | error e =>
        cases hst with
        | nodeAdd h => obtain ⟨j, _, _, h⟩ := h; cases h
      | ok n1 =>
        cases r2 with
        | error e => cases he
        | ok n2 => cases he; exact ⟨n1, n1, rfl, rfl, rfl⟩

/-- Another history with the entries of `exCross`. -/
def exCross2 : List DOp := [.add [0x11] (exNd 3), .add [0x10] (exNd 1), .add [0x11] (exNd 2)]

theorem exCross2_quiet : quiet exEnv (.setCidBuilder none :: exCross2) (start newDirectory 40) = true := by decide +kernel
theorem exCross_quiet' : quiet exEnv (.setCidBuilder none :: exCross) (start newDirectory 50) = true := by decide +kernel

/-- C66: the hypotheses are met by two different histories. -/
example : ∃ env, env.Valid 3 ∧ env.Real ∧ NoEmptyName exCross ∧ NoEmptyName exCross2 ∧
    mapAfter env (mapOf []) (.setCidBuilder none :: exCross) (start newDirectory 50) = mapAfter env (mapOf []) (.setCidBuilder none :: exCross2) (start newDirectory 40) ∧
    (∃ h, (execAll env (.setCidBuilder none :: exCross) (start newDirectory 50)).dir = .hamt h) ∧ ∃ h, (execAll env (.setCidBuilder none :: exCross2) (start newDirectory 40)).dir = .hamt h := by
  obtain ⟨env, ⟨E, B, C, he⟩, hr, _⟩ := exists_ex
  have h1 := execAll_congr (E := E) (B := B) (C := C) (.setCidBuilder none :: exCross) _ exCross_quiet'
  have h2 := execAll_congr (E := E) (B := B) (C := C) (.setCidBuilder none :: exCross2) _ exCross2_quiet
  rw [← he] at h1 h2
  refine ⟨env, IsEx.valid ⟨E, B, C, he⟩, hr, by simp [NoEmptyName, exCross, DOp.target], by simp [NoEmptyName, exCross2, DOp.target], ?_, ?_, ?_⟩
  · funext k
    rw [mapAfter, mapAfter, h1.2, h2.2, show results exEnv (.setCidBuilder none :: exCross) (start newDirectory 50) = [.done, .done, .done, .done, .done] by decide +kernel,
      show results exEnv (.setCidBuilder none :: exCross2) (start newDirectory 40) = [.done, .done, .done, .done] by decide +kernel]
    simp only [exCross, exCross2, List.zip_cons_cons, lastWrite, List.zip_nil_left]
    by_cases e1 : [0x11] = k
    · subst e1; decide
    · by_cases e2 : [0x10] = k
      · subst e2; decide
      · by_cases e3 : [0x11, 1] = k
        · subst e3; decide
        · simp [e1, e2, e3, mapOf]
  · rw [h1.1]; exact view_none (by decide +kernel)
  · rw [h2.1]; exact view_none (by decide +kernel)

end Unixfs.Props
