import Verif.Props.Crash
import Verif.Mod.Panic

/-! # C82: what a call of a modifier can fail for -/

namespace Unixfs.Props
open Unixfs Unixfs.Import Unixfs.Spec Unixfs.Mod

variable {env : Mod.Env} {root : Node} {c : Bytes} {ops : List MOp}

/-- C82, for the next call after any history of calls that reported no error, on a file that can be
extended, as long as nothing goes before the beginning: it does not panic, and unless it is a `Read`
or a `Seek` it succeeds or fails for a reason outside the modifier. Missing: calls after a failed one,
and negative positions, where it is false (`C82_violated`); files that `Append` cannot extend. -/
theorem C82_no_panic_partial (hsp : SplitOK env) (hs : SizesTrue root) (hc : content root = some c) (hg : Ext root)
    (hodd : ∀ t, (env.odd t).1.err ≠ some .panic) (hsplit : ∀ b, (env.split b).2 ≠ some .panic)
    (op : MOp) (hn : ∀ o ∈ ops ++ [op], NonNeg o) (hB : c.length + ((ops ++ [op]).map reachOf).sum < 2 ^ 63)
    (hf : List.Forall₂ Fine ops (results env root ops)) :
    ∃ r, results env root (ops ++ [op]) = results env root ops ++ [r] ∧ r.err ≠ some .panic ∧
      ((∀ k, op ≠ .read k) → (∀ off whence, op ≠ .seek off whence) → r.err = none ∨ OutsideFailure env r) := by
  simp only [List.map_append, List.sum_append, List.map_cons, List.map_nil, List.sum_cons, List.sum_nil, Nat.add_zero] at hB
  obtain ⟨dm, e, h⟩ := W.new hs hc (by omega) hg
  simp only [results, e] at hf ⊢
  have h2 := W.callOK ⟨hsplit, hodd⟩ hsp (W.run hsp ops h (fun o ho => hn o (by simp [ho])) (by omega) hf) op (hn op (by simp)) (by omega)
  refine ⟨_, by rw [run_append]; rfl, h2.1, fun hr hk => ?_⟩
  rcases h2.2 with ⟨k, h⟩ | ⟨o, w, h⟩ | h
  · exact absurd h (hr k)
  · exact absurd h (hk o w)
  · exact h

/-- C82 is violated: truncating to a negative size, or writing after a `Seek` before the beginning,
panics. -/
theorem C82_violated : (results wEnv wTen [.truncate (-1)]).map seen = [(0, [], none, some .panic)] ∧
    (results wEnv (wFile false [[1, 2]]) [.seek (-1) 0, .write [3], .sync]).map seen =
      [(-1, [], none, none), (1, [], none, none), (0, [], none, some .panic)] :=
  ⟨by decide +kernel, by decide +kernel⟩

/-- C63 is also violated by a failed extension: the store refused one block once (`wDebris`), and
`Truncate` reported it; the same call again succeeds, but the file then has more bytes than asked for. -/
theorem C63_violated_truncate : (results wDebris wTen [.truncate 12, .truncate 12, .size, .getNode]).map seen =
    [(0, [], none, some .addFailed), (0, [], none, none), (12, [], none, none),
     (0, [], some [48, 49, 50, 51, 52, 53, 54, 55, 56, 57, 0, 0, 0, 0], none)] := by
  decide +kernel

/-- The hypotheses are met by a history with every kind of call. -/
example : SplitOK wEnv ∧ (∀ t, (wEnv.odd t).1.err ≠ some .panic) ∧ (∀ b, (wEnv.split b).2 ≠ some .panic) :=
  ⟨wEnv_ok.1, fun _ => by simp [wEnv], fun _ => by simp [wEnv]⟩
example : (results wEnv wTen [.write [1], .writeAt [2, 3] 4, .read 2, .seek 1 0, .truncate 12, .sync, .size, .getNode]).all (fun r => r.err = none ∧ 0 ≤ r.n) := by
  decide +kernel
/-- A failure. -/
example : (results { wEnv with put := fun t => t != 1 } wTen [.seek 1 0, .write [1], .sync]).map seen =
    [(1, [], none, none), (1, [], none, none), (0, [], none, some .addFailed)] := by decide +kernel

end Unixfs.Props
