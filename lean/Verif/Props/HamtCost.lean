import Verif.Hamt.Mem
import Verif.Props.HamtLocal

/-!
# C104: what storing an edited sharded directory costs

The setting is that of `Props.HamtLocal`: `nd` is what `Node` returned after any history, under any
network and any store. It is loaded again, and calls on single names follow.
-/

namespace Unixfs.Props
open Unixfs.Hamt

variable {H : Hash} {lg : Nat} {s0 : Shard} {net : Net} {ref : Nat → Bool} {t : Nat} {st : List Node} {ops : List Op}

/-- C104: after any calls on single names, whatever their results, storing the directory adds at most
one block for the root and two for every level of the hash of every name: the number does not depend
on the size of the directory. -/
theorem C104_stored (hH : ∀ k, (H k).length = 8) (hs : newShard ((2 ^ lg : Nat) : Int) = .ok s0) (hn : NoEmptyName ops) {c : Cfg}
    (hc : c = execAll H net ref ops ⟨s0, t, st⟩) {nd : Node} {st' : List Node} (hnd : c.shard.toNode ref c.st = (.ok nd, st'))
    {s' : Shard} (hl : newHamtFromDag nd = .ok s') {ops' : List Op} (ho : ∀ o ∈ ops', About (fun _ => True) o) (hn' : NoEmptyName ops')
    {net1 : Net} {ref' : Nat → Bool} {t' : Nat} {st1 : List Node} {c' : Cfg} (hc' : c' = execAll H net1 ref' ops' ⟨s', t', st1⟩) (ref'' : Nat → Bool) :
    ∃ new, (c'.shard.toNode ref'' c'.st).2 = new ++ c'.st ∧ new.length ≤ 1 + 2 * (ops'.length * (64 / lg)) := by
  obtain ⟨hp, rfl⟩ := hp_of_new hH hs
  obtain ⟨b, cs, M, hi, _⟩ := execAll_spec hp net ref ops (inv_new hp none t st) hn
  rw [← hc] at hi
  obtain ⟨_, h⟩ := toNode_sim hp ref (levels lg + 1) c.shard b cs hi.rep ⟨_, _, _, hi.holds.wf, by omega⟩ c.st
  rw [hnd] at h
  simp only at h
  rcases h with ⟨h, _⟩ | ⟨h, _⟩
  · cases h
  · simp only [Except.ok.injEq] at h
    rw [h] at hl
    have hsh := sh_load (uni_toN hp _ _ _ b cs hi.holds.wf) hl
    have hm := execAll_mem (net := net1) (ref := ref') hH ops' ⟨s', t', st1⟩ hsh ho hn'
    rw [← hc', mem_load hl, lg_eq hp hsh.size] at hm
    obtain ⟨new, h1, h2⟩ := toNode_adds ref'' c'.shard c'.st
    exact ⟨new, h1, by omega⟩

/-- C104: the same for a directory that was never stored. -/
theorem C104_new (hH : ∀ k, (H k).length = 8) (hs : newShard ((2 ^ lg : Nat) : Int) = .ok s0) (hn : NoEmptyName ops) (ho : ∀ o ∈ ops, About (fun _ => True) o)
    {c : Cfg} (hc : c = execAll H net ref ops ⟨s0, t, st⟩) (ref' : Nat → Bool) :
    ∃ new, (c.shard.toNode ref' c.st).2 = new ++ c.st ∧ new.length ≤ 1 + 2 * (ops.length * (64 / lg)) := by
  obtain ⟨hp, he⟩ := hp_of_new hH hs
  obtain ⟨hsh, _⟩ := sh_new (n := 2 ^ lg) hs rfl
  have hm := execAll_mem (net := net) (ref := ref) hH ops ⟨s0, t, st⟩ hsh ho hn
  rw [← hc, (mem_make hs).1, lg_eq hp hsh.size] at hm
  obtain ⟨new, h1, h2⟩ := toNode_adds ref' c.shard c.st
  exact ⟨new, h1, by omega⟩

/-! Concrete case: the directory of `Props.HamtLocal`, loaded again. -/

/-- The number of blocks added by `Node` after the calls. -/
def exCost (ops : List Op) : Nat :=
  match newHamtFromDag exFourNd with
  | .ok s => ((execAll H0 goodNet goodAdd ops ⟨s, 0, []⟩).shard.toNode goodAdd []).2.length
  | _ => 0

/-- C104: without a call, only the root is stored again; one call adds the two sub-shards on the path
of its name, twice each; a removal that merges a sub-shard with its parent adds nothing;
an enumeration, which the theorem does not cover, adds all of them. -/
example : (exCost [], exCost [.find [0x10]], exCost [.set [0x12] (exNd 5)], exCost [.set [0x12] (exNd 5), .remove [0xE1]],
    exCost [.set [0x12] (exNd 5), .find [0xE1]], exCost [.forEach (fun _ => false)]) =
    (1, 5, 5, 5, 9, 9) := by decide +kernel

end Unixfs.Props
