import Verif.File.Robust
import Verif.File.Consist
import Verif.Props.File

/-!
# C69: malformed HAMT nodes

A HAMT node comes from the network, so its bitfield, its links and their names can be anything. The
theorems are about a `Shard` that was loaded from any node that `NewHamtFromDag` accepts, without any
relation between bitfield and links.
-/

namespace Unixfs.Props
open Unixfs Hamt Unixfs.File

/-- The call did not panic, and it ended. -/
def Safe : Hamt.Res → Prop
  | .fail e => e ≠ .panic ∧ e ≠ .outOfFuel
  | .list _ (some e) => e ≠ .panic ∧ e ≠ .outOfFuel
  | _ => True

/-- Reading and removing. -/
def ReadOrRemove : Op → Prop
  | .find _ | .forEach _ | .remove _ | .take _ | .setCidBuilder _ => True
  | _ => False

theorem exec_ok {H : Hash} {net : Net} {ref : Nat → Bool} {op : Op} (ho : ReadOrRemove op) {c : Hamt.Cfg} (h : Ok c.shard) :
    Safe (Hamt.exec H net ref op c).1 ∧ Ok (Hamt.exec H net ref op c).2.shard := by
  have htake : ∀ k, Fine (c.shard.take H net k c.t) := fun k => take_ok H net _ c.shard 0 k c.t h (by omega) (by rw [Shard.fuel])
  have hfind : ∀ k, Fine (c.shard.find H net k c.t) := fun k => getValue_ok H net _ c.shard 0 k c.t h (by omega) (by rw [Shard.fuel])
  cases op with
  | find k =>
    have := hfind k
    rw [Hamt.exec]
    generalize c.shard.find H net k c.t = r at this ⊢
    obtain ⟨r | r, s, t⟩ := r
    · exact ⟨this.1 _ rfl, this.2⟩
    · cases r <;> exact ⟨trivial, this.2⟩
  | forEach cb =>
    have := forEach_ok net cb c.shard.depth c.shard { out := [], t := c.t } h (le_refl _)
    rw [Hamt.exec]
    have hF : c.shard.forEachLink net cb c.t = forEachF net cb c.shard.depth c.shard { out := [], t := c.t } := rfl
    rw [hF]
    generalize forEachF net cb c.shard.depth c.shard { out := [], t := c.t } = r at this ⊢
    obtain ⟨e, s, es⟩ := r
    refine ⟨?_, this.2⟩
    cases e with
    | none => trivial
    | some e => exact this.1 e rfl
  | remove k =>
    have := htake k
    rw [Hamt.exec]
    generalize c.shard.take H net k c.t = r at this ⊢
    obtain ⟨r | r, s, t⟩ := r
    · exact ⟨this.1 _ rfl, this.2⟩
    · exact ⟨trivial, this.2⟩
  | take k =>
    have := htake k
    rw [Hamt.exec]
    generalize c.shard.take H net k c.t = r at this ⊢
    obtain ⟨r | r, s, t⟩ := r
    · exact ⟨this.1 _ rfl, this.2⟩
    · exact ⟨trivial, this.2⟩
  | setCidBuilder b => exact ⟨trivial, h.builder b⟩
  | _ => exact absurd ho (by simp [ReadOrRemove])

/-- C69: loading a shard from any node gives a shard or an error. -/
theorem C69_load (nd : Node) : NoPanic (newHamtFromDag nd) :=
  ⟨fun h => (load_sane h).1 rfl, fun h => (load_sane h).2 rfl⟩

example : NoPanic (newHamtFromDag (.proto [1, 2] [.mk [9] 1 (exNd 7)] .v0)) := C69_load _

/-- C69: on a shard loaded from any node, well-formed or not, any sequence of lookups, iterations and
removals ends, and none of them panics, whatever fetches fail. Missing: `Set`, `Swap`, `SetLink` and
`Node`, see `C69_violated`. -/
theorem C69_reads_partial {H : Hash} {net : Net} {ref : Nat → Bool} {nd : Node} {s : Shard} (hs : newHamtFromDag nd = .ok s) (t : Nat) (st : List Node)
    (ops : List Op) (ho : ∀ op ∈ ops, ReadOrRemove op) : ∀ r ∈ Hamt.results H net ref ops ⟨s, t, st⟩, Safe r := by
  have h := (load_fresh hs).1.ok
  generalize hc : (⟨s, t, st⟩ : Hamt.Cfg) = c
  have h : Ok c.shard := by rw [← hc]; exact h
  clear hc hs
  induction ops generalizing c with
  | nil => intro r hr; cases hr
  | cons op ops ih =>
    have h1 := exec_ok (H := H) (net := net) (ref := ref) (ho op (by simp)) h
    intro r hr
    rcases List.mem_cons.mp hr with rfl | hr
    · exact h1.1
    · exact ih (fun op hop => ho op (by simp [hop])) _ h1.2 r hr

theorem exec_sd {n : Nat} (hv : ValidSize n) {H : Hash} (hH : ∀ k, (H k).length = 8) {net : Net} {ref : Nat → Bool} {op : Op} (ho : op.target ≠ some [])
    {c : Hamt.Cfg} (h : Sd n c.shard) : Safe (Hamt.exec H net ref op c).1 ∧ Sd n (Hamt.exec H net ref op c).2.shard := by
  have hsw : ∀ k v, (v ≠ none → k ≠ []) → FineC n (Shard.swapValue H net (Shard.fuel H k) c.shard 0 k v c.t) :=
    fun k v hk => swapValue_sd hv hH net _ c.shard 0 k v c.t h hk (by omega) (by rw [Shard.fuel, hH])
  have hfind : ∀ k, FineC n (c.shard.find H net k c.t) := fun k => getValue_sd hv H net _ c.shard 0 k c.t h (by omega) (by rw [Shard.fuel])
  have hnode := toNode_sd hv ref c.shard c.st h
  have hswap : ∀ k nd, k ≠ [] → (∀ e, (c.shard.swap H net ref k nd c.t c.st).1 = .error e → e.Sane) ∧ Sd n (c.shard.swap H net ref k nd c.t c.st).2.1 := by
    intro k nd hk
    rw [Shard.swap]
    split
    · exact ⟨fun e he => by cases he; exact ⟨by simp, by simp⟩, h⟩
    · exact hsw k _ (fun _ => hk)
  cases op with
  | find k =>
    have := hfind k
    rw [Hamt.exec]
    generalize c.shard.find H net k c.t = r at this ⊢
    obtain ⟨r | r, s, t⟩ := r
    · exact ⟨this.1 _ rfl, this.2⟩
    · cases r <;> exact ⟨trivial, this.2⟩
  | forEach cb =>
    have := forEach_sd net cb c.shard.depth c.shard { out := [], t := c.t } h (le_refl _)
    rw [Hamt.exec]
    have hF : c.shard.forEachLink net cb c.t = forEachF net cb c.shard.depth c.shard { out := [], t := c.t } := rfl
    rw [hF]
    generalize forEachF net cb c.shard.depth c.shard { out := [], t := c.t } = r at this ⊢
    obtain ⟨e, s, es⟩ := r
    refine ⟨?_, this.2⟩
    cases e with
    | none => trivial
    | some e => exact this.1 e rfl
  | remove k =>
    have := hsw k none (by simp)
    rw [Hamt.exec, Shard.take]
    generalize Shard.swapValue H net (Shard.fuel H k) c.shard 0 k none c.t = r at this ⊢
    obtain ⟨r | r, s, t⟩ := r
    · exact ⟨this.1 _ rfl, this.2⟩
    · exact ⟨trivial, this.2⟩
  | take k =>
    have := hsw k none (by simp)
    rw [Hamt.exec, Shard.take]
    generalize Shard.swapValue H net (Shard.fuel H k) c.shard 0 k none c.t = r at this ⊢
    obtain ⟨r | r, s, t⟩ := r
    · exact ⟨this.1 _ rfl, this.2⟩
    · exact ⟨trivial, this.2⟩
  | set k nd =>
    have := hswap k nd (fun hk => ho (by rw [hk]; rfl))
    rw [Hamt.exec]
    generalize c.shard.swap H net ref k nd c.t c.st = r at this ⊢
    obtain ⟨r | r, s, t, st⟩ := r
    · exact ⟨this.1 _ rfl, this.2⟩
    · exact ⟨trivial, this.2⟩
  | swap k nd =>
    have := hswap k nd (fun hk => ho (by rw [hk]; rfl))
    rw [Hamt.exec]
    generalize c.shard.swap H net ref k nd c.t c.st = r at this ⊢
    obtain ⟨r | r, s, t, st⟩ := r
    · exact ⟨this.1 _ rfl, this.2⟩
    · exact ⟨trivial, this.2⟩
  | setLink k l =>
    have := hsw k (some (Link.rename l (linkNamePrefix c.shard.size 0 ++ k))) (fun _ hk => ho (by rw [hk]; rfl))
    rw [Hamt.exec, Shard.setLinkOp]
    generalize Shard.swapValue H net (Shard.fuel H k) c.shard 0 k (some (Link.rename l (linkNamePrefix c.shard.size 0 ++ k))) c.t = r at this ⊢
    obtain ⟨r | r, s, t⟩ := r
    · exact ⟨this.1 _ rfl, this.2⟩
    · exact ⟨trivial, this.2⟩
  | node =>
    rw [Hamt.exec]
    generalize c.shard.toNode ref c.st = r at hnode ⊢
    obtain ⟨r | r, st⟩ := r
    · exact ⟨hnode, h⟩
    · exact ⟨trivial, h⟩
  | reload =>
    rw [Hamt.exec]
    generalize c.shard.toNode ref c.st = r at hnode ⊢
    obtain ⟨r | r, st⟩ := r
    · exact ⟨hnode, h⟩
    · dsimp only
      cases hl : newHamtFromDag r with
      | error e => exact ⟨load_sane hl, h⟩
      | ok s => exact ⟨trivial, hnode s hl⟩
  | setCidBuilder b => exact ⟨trivial, h.builder b⟩

/-- C69: if the shards of the node agree in width, have at least as many links as bits in the
bitfield, and have names that are long enough, no history of calls of any kind panics or goes on
forever, wherever entries sit and whatever else is wrong. The hash function gives 64 bits; the empty
name is not stored (C44). -/
theorem C69_consistent_partial {n : Nat} {H : Hash} (hH : ∀ k, (H k).length = 8) {net : Net} {ref : Nat → Bool} {nd : Node} {s : Shard} (hc : Consistent n nd)
    (hs : newHamtFromDag nd = .ok s) (t : Nat) (st : List Node) (ops : List Op) (hn : NoEmptyName ops) : ∀ r ∈ Hamt.results H net ref ops ⟨s, t, st⟩, Safe r := by
  have h := load_consistent _ (le_refl _) hc s hs
  have hv : ValidSize n := by
    rw [← h.size]
    obtain ⟨k, h1, h2, h3⟩ := (load_fresh hs).1.width
    exact ⟨k, h1, h2, h3⟩
  generalize hcfg : (⟨s, t, st⟩ : Hamt.Cfg) = c
  have h : Sd n c.shard := by rw [← hcfg]; exact h
  clear hcfg hs
  induction ops generalizing c with
  | nil => intro r hr; cases hr
  | cons op ops ih =>
    have h1 := exec_sd hv hH (net := net) (ref := ref) (hn op (by simp)) h
    intro r hr
    rcases List.mem_cons.mp hr with rfl | hr
    · exact h1.1
    · exact ih (fun op hop => hn op (by simp [hop])) _ h1.2 r hr

/-- A HAMT node of width 8 whose bitfield announces seven children, but which has no links. -/
def exBad : Node := .proto (match hamtShardData (some [0x7f]) 8 HashMurmur3 with | .ok d => d | .error _ => []) [] .v0

/-- The results of calls on the shard loaded from a node. -/
def loadResults (nd : Node) (ops : List Op) : Option (List Hamt.Res) :=
  match newHamtFromDag nd with
  | .ok s => some (Hamt.results H0 goodNet goodAdd ops ⟨s, 0, []⟩)
  | .error _ => none

theorem loadResults_some {nd : Node} {ops : List Op} {rs : List Hamt.Res} (h : loadResults nd ops = some rs) :
    ∃ s, newHamtFromDag nd = .ok s ∧ Hamt.results H0 goodNet goodAdd ops ⟨s, 0, []⟩ = rs := by
  rw [loadResults] at h
  split at h
  · exact ⟨_, by assumption, by simpa using h⟩
  · cases h

/-- A HAMT node with wrong hashes, a name that occurs twice, a sub-shard that is a directory, a
sub-shard with too many links and an entry that does not belong there. -/
def exOdd : Node := .proto (match hamtShardData (some [0x17]) 8 HashMurmur3 with | .ok d => d | .error _ => [])
  [.mk [48, 97] 3 (exNd 1), .mk [48] 4 emptyDirNode,
   .mk [55] 5 (.proto (match hamtShardData (some [0x01]) 8 HashMurmur3 with | .ok d => d | .error _ => []) [.mk [48, 99] 1 (exNd 2), .mk [49, 98] 1 (exNd 3)] .v0),
   .mk [48, 97] 3 (exNd 1), .mk [48, 97, 98] 3 (exNd 1)] .v0

example : Consistent 8 exOdd := consistent_of (by decide +kernel)

/-- Some calls on it: only one reaches what is wrong. -/
example : ∃ s, newHamtFromDag exOdd = .ok s ∧
    Hamt.results H0 goodNet goodAdd [.set [0x20] (exNd 4), .set [0x40] (exNd 4), .set [0xe1] (exNd 4), .reload, .find [0xe1], .remove [0xe1]] ⟨s, 0, []⟩ =
      [.fail (.hamt "node was not a dir shard"), .done, .done, .done, .val ((exNd 4).size, exNd 4), .done] :=
  loadResults_some (by decide +kernel)

/-- Lookups and removals on `exBad` fail, an iteration finds nothing. -/
example : ∃ s, newHamtFromDag exBad = .ok s ∧
    Hamt.results H0 goodNet goodAdd [.find [1], .find [0xe1], .forEach (fun _ => false), .remove [1]] ⟨s, 0, []⟩ =
      [.fail (.hamt "invalid index passed to operate children"), .fail .notExist, .list [] none, .fail (.hamt "invalid index passed to operate children")] :=
  loadResults_some (by decide +kernel)

/-- C69 is violated: the node is accepted, but storing into it, and asking for its node, panics. -/
theorem C69_violated : (∃ s, newHamtFromDag exBad = .ok s ∧ Hamt.results H0 goodNet goodAdd [.set [0xe1] (exNd 1)] ⟨s, 0, []⟩ = [.fail .panic]) ∧
    ∃ s, newHamtFromDag exBad = .ok s ∧ Hamt.results H0 goodNet goodAdd [.node] ⟨s, 0, []⟩ = [.fail .panic] :=
  ⟨loadResults_some (by decide +kernel), loadResults_some (by decide +kernel)⟩


end Unixfs.Props
