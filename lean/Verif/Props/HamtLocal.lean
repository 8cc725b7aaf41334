import Verif.Hamt.Share
import Verif.Props.Hamt

/-!
# C79, C80: a call on one name touches only the shards on its hash path

The setting is that of `Props.Hamt`: `nd` is what `Node` returned after any history, under any
network and any store. It is loaded again, and calls on single names follow.
-/

namespace Unixfs.Props
open Unixfs.Hamt

variable {H : Hash} {lg : Nat} {s0 : Shard} {net : Net} {ref : Nat → Bool} {t : Nat} {st : List Node} {ops : List Op}

/-- C79: calls on the names in `K` depend only on those sub-shards of the stored directory whose
paths are made of the first slices of the hash of a name in `K`: two networks that agree on them,
and differ in any way elsewhere, give the same results, the same number of fetches, the same stored
blocks and the same final state. -/
theorem C79_only_path (hH : ∀ k, (H k).length = 8) (hs : newShard ((2 ^ lg : Nat) : Int) = .ok s0) (hn : NoEmptyName ops) {c : Cfg}
    (hc : c = execAll H net ref ops ⟨s0, t, st⟩) {nd : Node} {st' : List Node} (hnd : c.shard.toNode ref c.st = (.ok nd, st'))
    {s' : Shard} (hl : newHamtFromDag nd = .ok s') {K : Bytes → Prop} {ops' : List Op} (ho : ∀ op ∈ ops', About K op) (hn' : NoEmptyName ops')
    {net1 net2 : Net} (hagree : ∀ k, K k → ∀ p x, p ≠ [] → HashPath H lg k p → SubShardAt (digits (2 ^ lg)) nd p x → ∀ u, net1 u x = net2 u x)
    (ref' : Nat → Bool) (t' : Nat) (st1 : List Node) :
    results H net1 ref' ops' ⟨s', t', st1⟩ = results H net2 ref' ops' ⟨s', t', st1⟩ ∧
    execAll H net1 ref' ops' ⟨s', t', st1⟩ = execAll H net2 ref' ops' ⟨s', t', st1⟩ := by
  obtain ⟨hp, rfl⟩ := hp_of_new hH hs
  obtain ⟨b, cs, M, hi, _⟩ := execAll_spec hp net ref ops (inv_new hp none t st) hn
  rw [← hc] at hi
  obtain ⟨_, h⟩ := toNode_sim hp ref (levels lg + 1) c.shard b cs hi.rep ⟨_, _, _, hi.holds.wf, by omega⟩ c.st
  rw [hnd] at h
  simp only at h
  rcases h with ⟨h, _⟩ | ⟨h, _⟩
  · cases h
  · simp only [Except.ok.injEq] at h
    rw [h] at hagree hl
    refine results_local ops' ⟨s', t', st1⟩ (sh_load (uni_toN hp _ _ _ b cs hi.holds.wf) hl) ho hn' ?_
    intro k hk x hx
    obtain ⟨p, h1, h2, h3, h4⟩ := need_path hp _ _ _ b cs (by omega) hi.holds.wf s' k x hl (by simpa using hx)
    exact hagree k hk p x h2 (hashPath_of hp (by omega) (by simpa using h4)) h1

/-- C79: in particular, when the shards on the hash paths of the names can be fetched, the calls
succeed as if everything could. -/
theorem C79_lost_elsewhere (hH : ∀ k, (H k).length = 8) (hs : newShard ((2 ^ lg : Nat) : Int) = .ok s0) (hn : NoEmptyName ops) {c : Cfg}
    (hc : c = execAll H net ref ops ⟨s0, t, st⟩) {nd : Node} {st' : List Node} (hnd : c.shard.toNode ref c.st = (.ok nd, st'))
    {s' : Shard} (hl : newHamtFromDag nd = .ok s') {K : Bytes → Prop} {ops' : List Op} (ho : ∀ op ∈ ops', About K op) (hn' : NoEmptyName ops')
    {net1 : Net} (hhas : ∀ k, K k → ∀ p x, p ≠ [] → HashPath H lg k p → SubShardAt (digits (2 ^ lg)) nd p x → ∀ u, net1 u x = true) :
    results H net1 goodAdd ops' ⟨s', c.t, st'⟩ = results H goodNet goodAdd ops' c := by
  rw [(C79_only_path hH hs hn hc hnd hl ho hn' (net2 := goodNet) hhas goodAdd c.t st').1]
  obtain ⟨⟨s1, h1, h2⟩, _⟩ := C37_round_trip hH hs hn hc hnd
  rw [hl] at h1; cases h1
  exact h2 ops' hn'

/-- C79: every call on a name fetches at most one shard per level: `64 / lg` in all, however large
the directory is. -/
theorem C79_fetches (hH : ∀ k, (H k).length = 8) (hs : newShard ((2 ^ lg : Nat) : Int) = .ok s0) (hn : NoEmptyName ops) {c : Cfg}
    (hc : c = execAll H net ref ops ⟨s0, t, st⟩) {nd : Node} {st' : List Node} (hnd : c.shard.toNode ref c.st = (.ok nd, st'))
    {s' : Shard} (hl : newHamtFromDag nd = .ok s') {ops' : List Op} {op : Op} (ho : ∀ o ∈ ops' ++ [op], About (fun _ => True) o) (hn' : NoEmptyName (ops' ++ [op]))
    {net1 : Net} {ref' : Nat → Bool} {t' : Nat} {st1 : List Node} {c' : Cfg} (hc' : c' = execAll H net1 ref' ops' ⟨s', t', st1⟩) :
    (exec H net1 ref' op c').2.t ≤ c'.t + 64 / lg := by
  obtain ⟨hp, rfl⟩ := hp_of_new hH hs
  obtain ⟨b, cs, M, hi, _⟩ := execAll_spec hp net ref ops (inv_new hp none t st) hn
  rw [← hc] at hi
  obtain ⟨_, h⟩ := toNode_sim hp ref (levels lg + 1) c.shard b cs hi.rep ⟨_, _, _, hi.holds.wf, by omega⟩ c.st
  rw [hnd] at h
  simp only at h
  rcases h with ⟨h, _⟩ | ⟨h, _⟩
  · cases h
  · simp only [Except.ok.injEq] at h
    rw [h] at hl
    have hk := execAll_kept (H := H) (net := net1) (ref := ref') (K := fun _ => True) ops' ⟨s', t', st1⟩ (sh_load (uni_toN hp _ _ _ b cs hi.holds.wf) hl)
      (fun o h => ho o (by simp [h])) (fun o h => hn' o (by simp [h]))
    rw [← hc'] at hk
    have := exec_count (net := net1) (ref := ref') hH hk.ok (ho op (by simp)) (hn' op (by simp))
    rwa [lg_eq hp hk.ok.size] at this

/-! Concrete case: width 8, four names; the first two are below the indices 0 and 4, the others
below 7 and 0. -/

def exFour : List Op := [.set [0x10] (exNd 1), .set [0x11] (exNd 2), .set [0xE0] (exNd 3), .set [0xE1] (exNd 4)]

/-- The directory stored after these calls. -/
def exFourNd : Node :=
  match (execAll H0 goodNet goodAdd exFour ⟨exS 8, 0, []⟩).shard.toNode goodAdd [] with
  | (.ok nd, _) => nd
  | _ => exNd 0

/-- The sub-shard at index 7 is lost. -/
def exFourLost : Node := match exFourNd with | .proto _ [_, l] _ => l.target | _ => exNd 0
def exFourNet : Net := fun _ x => x ≠ exFourLost

/-- C79: calls on names elsewhere work; calls on names below index 7 do not. The sub-shards at the
paths `[0]`, `[0, 4]` are needed for the name `[0x10]`; both are fetched once. -/
example : (match newHamtFromDag exFourNd with
    | .ok s =>
      (results H0 exFourNet goodAdd [.find [0x10], .remove [0x11], .set [0x12] (exNd 5), .find [0x10], .find [0xE0], .remove [0xE1]] ⟨s, 0, []⟩,
        (execAll H0 exFourNet goodAdd [.find [0x10], .remove [0x11], .set [0x12] (exNd 5)] ⟨s, 0, []⟩).t)
    | _ => ([], 0)) =
    ([.val ((exNd 1).size, exNd 1), .done, .done, .val ((exNd 1).size, exNd 1), .fail .notFound, .fail .notFound], 2) := by decide +kernel

example : HashPath H0 3 [0x10] [0, 4] ∧ ¬ HashPath H0 3 [0x10] [7] ∧ HashPath H0 3 [0xE0] [7] := by
  simp only [HashPath]; decide +kernel

example : ∀ op ∈ [Op.find [0x10], .remove [0x11], .set [0x12] (exNd 5)], About (fun k => k = [0x10] ∨ k = [0x11] ∨ k = [0x12]) op := by
  simp only [List.mem_cons, List.not_mem_nil, or_false]
  rintro op (rfl | rfl | rfl)
  · exact .find (.inl rfl)
  · exact .remove (.inr (.inl rfl))
  · exact .set (.inr (.inr rfl))

mutual
/-- The sub-shards with their paths, computed. -/
def exSubs (dg : Nat) : Node → List (List Nat × Node)
  | .proto d ls b => ([], .proto d ls b) :: exSubsL dg ls
  | x => [([], x)]
def exSubsL (dg : Nat) : List Link → List (List Nat × Node)
  | [] => []
  | .mk nm _ x :: ls =>
    (if nm.length = dg then match hexVal nm with | some i => (exSubs dg x).map (fun q => (i :: q.1, q.2)) | none => [] else []) ++ exSubsL dg ls
end

theorem mem_exSubsL {dg i : Nat} {q : List Nat × Node} : ∀ {ls : List Link} {l : Link}, l ∈ ls → l.name.length = dg → hexVal l.name = some i → q ∈ exSubs dg l.target →
    (i :: q.1, q.2) ∈ exSubsL dg ls
  | .mk nm z x :: ls, l, hl, hn, hi, hq => by
    rw [exSubsL, List.mem_append]
    rcases List.mem_cons.mp hl with rfl | hl
    · left
      simp only [Link.name, Link.target] at hn hi hq
      rw [if_pos hn, hi]
      exact List.mem_map.mpr ⟨q, hq, rfl⟩
    · exact .inr (mem_exSubsL hl hn hi hq)

theorem mem_exSubs {dg : Nat} {nd x : Node} {p : List Nat} (h : SubShardAt dg nd p x) : (p, x) ∈ exSubs dg nd := by
  induction h with
  | self nd => cases nd <;> simp [exSubs]
  | link hl hn hi _ ih => rw [exSubs]; exact .tail _ (mem_exSubsL (q := (_, _)) hl hn hi ih)

/-- C79: the network above meets the hypothesis of `C79_lost_elsewhere`, and there is something lost. -/
example : (∀ k, k = [0x10] ∨ k = [0x11] ∨ k = [0x12] → ∀ p x, p ≠ [] → HashPath H0 3 k p → SubShardAt (digits (2 ^ 3)) exFourNd p x → ∀ u, exFourNet u x = true) ∧
    ([7], exFourLost) ∈ exSubs (digits (2 ^ 3)) exFourNd := by
  constructor
  · intro k hk p x hp hpath hx u
    have h1 : p.head? = some 0 := by
      cases p with
      | nil => exact absurd rfl hp
      | cons i p =>
        rw [HashPath, List.length_cons, List.replicate_succ, slices, List.cons.injEq] at hpath
        rw [List.head?_cons, hpath.1]
        rcases hk with rfl | rfl | rfl <;> decide +kernel
    have h2 : ∀ q ∈ exSubs (digits (2 ^ 3)) exFourNd, q.1.head? = some 0 → q.2 ≠ exFourLost := by decide +kernel
    exact decide_eq_true (h2 _ (mem_exSubs hx) h1)
  · decide +kernel

/-! ### C80: sharing of shards between versions -/

/-- C80: `nd` is what `Node` returns before, `nd'` what it returns after any further calls. A
sub-shard at a path that is not made of slices of the hash of a name that these calls store or
remove is the same block in both, or in neither. -/
theorem C80_shared (hH : ∀ k, (H k).length = 8) (hs : newShard ((2 ^ lg : Nat) : Int) = .ok s0) (hn : NoEmptyName ops) {c : Cfg}
    (hc : c = execAll H net ref ops ⟨s0, t, st⟩) {nd : Node} {st1 : List Node} (hnd : c.shard.toNode ref c.st = (.ok nd, st1))
    {ops' : List Op} (hn' : NoEmptyName ops') {net' : Net} {ref' : Nat → Bool} {c' : Cfg} (hc' : c' = execAll H net' ref' ops' c)
    {nd' : Node} {st2 : List Node} (hnd' : c'.shard.toNode ref' c'.st = (.ok nd', st2))
    {p : List Nat} {x : Node} (hp0 : p ≠ []) (hoff : ∀ op ∈ ops', ∀ k, op.target = some k → ¬ HashPath H lg k p) :
    SubShardAt (digits (2 ^ lg)) nd p x ↔ SubShardAt (digits (2 ^ lg)) nd' p x := by
  obtain ⟨hp, rfl⟩ := hp_of_new hH hs
  obtain ⟨b, cs, M, hi, _⟩ := execAll_spec hp net ref ops (inv_new hp none t st) hn
  rw [← hc] at hi
  obtain ⟨b', cs', M', hi', hsame⟩ := exec_off hp net' ref' ops' hi hn'
  rw [← hc'] at hi'
  obtain ⟨_, h⟩ := toNode_sim hp ref (levels lg + 1) c.shard b cs hi.rep ⟨_, _, _, hi.holds.wf, by omega⟩ c.st
  obtain ⟨_, h'⟩ := toNode_sim hp ref' (levels lg + 1) c'.shard b' cs' hi'.rep ⟨_, _, _, hi'.holds.wf, by omega⟩ c'.st
  rw [hnd] at h
  rw [hnd'] at h'
  simp only at h h'
  rcases h with ⟨h, _⟩ | ⟨h, _⟩
  · cases h
  rcases h' with ⟨h', _⟩ | ⟨h', _⟩
  · cases h'
  simp only [Except.ok.injEq] at h h'
  rw [h, h']
  by_cases hl : p.length ≤ levels lg
  · exact hsame p x hp0 (fun op ho k hk hon => hoff op ho k hk ((on_iff hp hl).mp hon))
  · constructor
    · intro hx; exact absurd (sub_length hp _ _ _ b cs p x hi.holds.wf hx) (by omega)
    · intro hx; exact absurd (sub_length hp _ _ _ b' cs' p x hi'.holds.wf hx) (by omega)

/-- C80: one call changes at most one shard per level: all shards of the new version but at most
`64 / lg` are shards of the old one. -/
theorem C80_few_new (hH : ∀ k, (H k).length = 8) (hs : newShard ((2 ^ lg : Nat) : Int) = .ok s0) (hn : NoEmptyName ops) {c : Cfg}
    (hc : c = execAll H net ref ops ⟨s0, t, st⟩) {nd : Node} {st1 : List Node} (hnd : c.shard.toNode ref c.st = (.ok nd, st1))
    {op : Op} (hn' : op.target ≠ some []) {net' : Net} {ref' : Nat → Bool} {c' : Cfg} (hc' : c' = (exec H net' ref' op c).2)
    {nd' : Node} {st2 : List Node} (hnd' : c'.shard.toNode ref' c'.st = (.ok nd', st2)) :
    ∃ new : List Node, new.length ≤ 64 / lg ∧ ∀ x, SubShard (digits (2 ^ lg)) nd' x → SubShard (digits (2 ^ lg)) nd x ∨ x ∈ new := by
  have hshare := fun p x hp0 => C80_shared hH hs hn hc hnd (ops' := [op]) (by simpa [NoEmptyName] using hn') (c' := c') (by rw [hc']; rfl) hnd' (p := p) (x := x) hp0
  obtain ⟨hp, rfl⟩ := hp_of_new hH hs
  obtain ⟨b, cs, M, hi, _⟩ := execAll_spec hp net ref ops (inv_new hp none t st) hn
  rw [← hc] at hi
  obtain ⟨b', cs', M', hi', _⟩ := exec_spec hp net' ref' hi op hn'
  rw [← hc'] at hi'
  obtain ⟨_, h'⟩ := toNode_sim hp ref' (levels lg + 1) c'.shard b' cs' hi'.rep ⟨_, _, _, hi'.holds.wf, by omega⟩ c'.st
  rw [hnd'] at h'
  simp only at h'
  rcases h' with ⟨h', _⟩ | ⟨h', _⟩
  · cases h'
  simp only [Except.ok.injEq] at h'
  rw [h'] at hshare
  rw [h']
  classical
  -- the shard at each level of the path
  let path : Nat → List Nat := fun j => match op.target with | some k => slices (bitsOf (H k)) (List.replicate j lg) | none => []
  let at_ : Nat → Option Node := fun j =>
    if h : ∃ x, SubShardAt (digits (2 ^ lg)) ((Trie.node b' cs').toN (2 ^ lg)) (path j) x then some h.choose else none
  refine ⟨(List.range (64 / lg)).filterMap at_, (List.length_filterMap_le _ _).trans (by simp), ?_⟩
  intro x hx
  obtain ⟨p, hpx⟩ := sub_at hp _ _ _ b' cs' x hi'.holds.wf hx
  have hlen := sub_length hp _ _ _ b' cs' p x hi'.holds.wf hpx
  by_cases hin : p = path p.length
  · right
    rw [List.mem_filterMap]
    refine ⟨p.length, List.mem_range.mpr hlen, ?_⟩
    have hex : ∃ x, SubShardAt (digits (2 ^ lg)) ((Trie.node b' cs').toN (2 ^ lg)) (path p.length) x := ⟨x, hin ▸ hpx⟩
    show (if h : _ then _ else _) = _
    rw [dif_pos hex]
    congr 1
    exact sub_unique hp _ _ _ b' cs' (path p.length) _ x hi'.holds.wf hex.choose_spec (hin ▸ hpx)
  · have hp0 : p ≠ [] := by
      rintro rfl
      apply hin
      show [] = _
      simp only [path]
      cases op.target <;> simp [slices]
    left
    refine subShard_of_at ((hshare p x hp0 ?_).mpr hpx)
    intro o ho k hk hhp
    have : o = op := by simpa using ho
    subst this
    apply hin
    simp only [path]
    rw [hk]
    exact hhp

/-- C80: in the directory with four names, removing `[0x11]` removes both shards on its path, whose
other name moves up, and leaves the shards below index 7 as they are. -/
example : (match (execAll H0 goodNet goodAdd (exFour ++ [.remove [0x11]]) ⟨exS 8, 0, []⟩).shard.toNode goodAdd [] with
    | (.ok nd', _) => ((exSubs 1 nd').map Prod.fst, ([7], exFourLost) ∈ exSubs 1 nd')
    | _ => ([], False)) = ([[], [7], [7, 0]], True) ∧
    (exSubs 1 exFourNd).map Prod.fst = [[], [0], [0, 4], [7], [7, 0]] ∧ ([7], exFourLost) ∈ exSubs 1 exFourNd ∧ ¬ HashPath H0 3 [0x11] [7] := by
  simp only [HashPath]
  have h : (match (execAll H0 goodNet goodAdd (exFour ++ [.remove [0x11]]) ⟨exS 8, 0, []⟩).shard.toNode goodAdd [] with
    | (.ok nd', _) => ((exSubs 1 nd').map Prod.fst, decide (([7], exFourLost) ∈ exSubs 1 nd'))
    | _ => ([], false)) = ([[], [7], [7, 0]], true) := by decide +kernel
  refine ⟨?_, by decide +kernel, by decide +kernel, by decide +kernel⟩
  generalize Shard.toNode _ _ _ = r at h
  obtain ⟨r, s⟩ := r
  cases r with
  | error e => simp at h
  | ok nd =>
    simp only [Prod.mk.injEq, decide_eq_true_eq] at h
    simp only [Prod.mk.injEq, h.1, true_and, eq_iff_iff, iff_true]
    exact h.2

end Unixfs.Props
