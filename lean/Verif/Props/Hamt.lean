import Verif.Hamt.PropLemmas

/-!
# HAMT properties: C34–C38, C43–C45, C54, C55

`H` is any hash function with 8-byte results (murmur3's 64-bit digest is one). A width is written
`2 ^ lg`; by `C54_widths` every width that `NewShard` accepts is of this form. Histories are run under any network `net`
(which fetches fail) and any store `ref` (which additions are refused). They start from a new shard;
the call `reload` in them continues with `NewHamtFromDag` of the current node, so that everything
said about histories is also said about loaded shards.
-/

namespace Unixfs.Props
open Unixfs.Hamt

variable {H : Hash} {lg : Nat} {s0 : Shard} {net : Net} {ref : Nat → Bool} {t : Nat} {st : List Node} {ops : List Op}

/-! ### C34: hash slicing -/

/-- C34: successive calls of `Next` cut the bits of the hash, most significant first, into slices of
the requested widths. -/
theorem C34_slices (b : Bytes) (ws : List Nat) (hpos : ∀ w ∈ ws, 0 < w) (c : Nat) (hfit : c + ws.sum ≤ 8 * b.length) :
    nextAll b c ws = .ok (slices ((bitsOf b).drop c) ws) := by
  induction ws generalizing c with
  | nil => rfl
  | cons w ws ih =>
    rw [List.sum_cons] at hfit
    rw [nextAll, nextBits_slice b c w (hpos w (by simp)) (by omega)]
    dsimp only
    rw [ih (fun w hw => hpos w (by simp [hw])) (c + w) (by omega), slices, List.drop_drop]

/-- C34: asking for more bits than remain is an error, however they are asked for. -/
theorem C34_exhausted (b : Bytes) (ws : List Nat) (hpos : ∀ w ∈ ws, 0 < w) (c : Nat) (hfit : 8 * b.length < c + ws.sum) (hc : c ≤ 8 * b.length) :
    nextAll b c ws = .error .tooDeep := by
  induction ws generalizing c with
  | nil => simp at hfit; omega
  | cons w ws ih =>
    rw [List.sum_cons] at hfit
    rw [nextAll]
    by_cases h : c + w ≤ 8 * b.length
    · rw [nextBits_slice b c w (hpos w (by simp)) (by omega)]
      dsimp only
      rw [ih (fun w hw => hpos w (by simp [hw])) (c + w) (by omega) h]
    · rw [nextBits_deep b c w (by omega)]

example : nextAll [0xAB, 0xCD, 0xEF] 0 [3, 10, 4] = .ok [5, 0x179, 0xB] ∧ nextAll [0xAB, 0xCD, 0xEF] 0 [20, 5] = .error .tooDeep := by decide +kernel

/-! ### C54: widths -/

/-- C54: `Logtwo` accepts exactly the powers of two and returns the exponent. `int` has 64 bits. -/
theorem C54_logtwo (v : Int) (hv : v < 2 ^ 63) (n : Nat) : logtwo v = .ok n ↔ v = 2 ^ n := logtwo_iff v hv n

example : logtwo 256 = .ok 8 ∧ ∀ n, logtwo 12 ≠ .ok n :=
  ⟨(C54_logtwo 256 (by decide) 8).mpr (by decide), fun n h => by
    have h := (C54_logtwo 12 (by decide) n).mp h
    rcases n with _ | _ | _ | _ | n
    · cases h
    · cases h
    · cases h
    · cases h
    · have : (2 : Int) ^ (n + 4) = 16 * 2 ^ n := by rw [pow_add]; omega
      have := Int.pow_pos (n := 2) (m := n) (by decide)
      omega⟩

/-- C54: `NewShard` accepts exactly 8, 16, ..., 1024. -/
theorem C54_widths (size : Int) : (∃ s, newShard size = .ok s) ↔ size ∈ ([8, 16, 32, 64, 128, 256, 512, 1024] : List Int) := by
  constructor
  · rintro ⟨s, hs⟩
    obtain ⟨k, h1, h2, rfl, _⟩ := (makeShard_iff _ _ _ _).mp hs
    have : k = 3 ∨ k = 4 ∨ k = 5 ∨ k = 6 ∨ k = 7 ∨ k = 8 ∨ k = 9 ∨ k = 10 := by omega
    rcases this with rfl | rfl | rfl | rfl | rfl | rfl | rfl | rfl <;> decide
  · intro h
    have : ∃ k : Nat, 3 ≤ k ∧ k ≤ 10 ∧ size = 2 ^ k := by
      simp only [List.mem_cons, List.not_mem_nil, or_false] at h
      rcases h with rfl | rfl | rfl | rfl | rfl | rfl | rfl | rfl
      exacts [⟨3, by decide⟩, ⟨4, by decide⟩, ⟨5, by decide⟩, ⟨6, by decide⟩, ⟨7, by decide⟩, ⟨8, by decide⟩, ⟨9, by decide⟩, ⟨10, by decide⟩]
    obtain ⟨k, h1, h2, h3⟩ := this
    exact ⟨_, (makeShard_iff _ _ _ _).mpr ⟨k, h1, h2, h3, rfl⟩⟩

example : (∃ s, newShard 256 = .ok s) ∧ ¬ ∃ s, newShard 100 = .ok s :=
  ⟨(C54_widths 256).mpr (by decide), fun h => by have := (C54_widths 100).mp h; revert this; decide⟩

/-! ### C35: a finite map -/

/-! Concrete histories that meet the hypotheses of the theorems below. -/

/-- A hash with collisions: the first 8 bytes of the name, padded with zeros. -/
def H0 : Hash := fun k => (k ++ List.replicate 8 0).take 8

theorem H0_length (k : Bytes) : (H0 k).length = 8 := by simp [H0]

def exNd (b : UInt8) : Node := .raw [b] .v0
def exS (size : Nat) : Shard := .mk size (bfNew size) [] none [] none
theorem exS_new : newShard ((2 ^ 3 : Nat) : Int) = .ok (exS 8) := makeShard_valid (size := 8) ⟨3, by omega, by omega, rfl⟩ [] none

/-- Two names that share three slices, and their removal. -/
def exOps : List Op := [.set [0x10] (exNd 1), .set [0x11] (exNd 2), .set [0x11, 1] (exNd 3), .swap [0x10] (exNd 4), .remove [0x11, 1]]
/-- The same entries in another way. -/
def exOps' : List Op := [.set [0x99] (exNd 9), .set [0x11] (exNd 2), .reload, .find [0x11], .set [0x10] (exNd 4), .take [0x99]]

theorem exOps_ne : NoEmptyName exOps := by simp [NoEmptyName, exOps, Op.target]
theorem exOps'_ne : NoEmptyName exOps' := by simp [NoEmptyName, exOps', Op.target]

theorem exRes : results H0 goodNet goodAdd exOps ⟨exS 8, 0, []⟩ = [.done, .done, .done, .prev (some ((exNd 1).size, exNd 1)), .done] := by decide +kernel
theorem exRes' : results H0 goodNet goodAdd exOps' ⟨exS 8, 0, []⟩
    = [.done, .done, .done, .val ((exNd 2).size, exNd 2), .done, .prev (some ((exNd 9).size, exNd 9))] := by decide +kernel

/-- C35: under any history of calls, with any failures of the network and the store, every call does
what it must do to a plain map that is empty at first. -/
theorem C35_finite_map (hH : ∀ k, (H k).length = 8) (hs : newShard ((2 ^ lg : Nat) : Int) = .ok s0) (hn : NoEmptyName ops) :
    ∃ M, SpecRun H net ref (Collide H lg) ⟨s0, t, st⟩ (fun _ => none) ops M := by
  obtain ⟨hp, rfl⟩ := hp_of_new hH hs
  obtain ⟨_, _, M, _, h⟩ := execAll_spec hp net ref ops (inv_new hp none t st) hn
  exact ⟨M, h⟩

/-- What a run of the specification leaves in the map. -/
theorem SpecRun.last {coll : Bytes → Bytes → Prop} {c : Cfg} {M M' : NMap} (h : SpecRun H net ref coll c M ops M') (k : Bytes) :
    M' k = lastWrite k (M k) (ops.zip (results H net ref ops c)) := by
  induction h with
  | nil => rfl
  | cons he hs _ ih =>
    rw [results, he, List.zip_cons_cons, ih]
    dsimp only
    cases hs with
    | set h => cases h <;> simp only [lastWrite, NMap.upd, eq_comm]
    | setLink h => cases h <;> simp only [lastWrite, NMap.upd, eq_comm]
    | swap h => cases h <;> simp only [lastWrite, NMap.upd, eq_comm]
    | remove h => cases h <;> simp only [lastWrite, NMap.upd, eq_comm]
    | take h => cases h <;> simp only [lastWrite, NMap.upd, eq_comm]
    | _ => simp only [lastWrite]

/-- C35: after any history, with any failures in it, `Find` returns the value that the last
successful update of the name left, and `ErrNotExist` if there is none. -/
theorem C35_find_last (hH : ∀ k, (H k).length = 8) (hs : newShard ((2 ^ lg : Nat) : Int) = .ok s0) (hn : NoEmptyName ops) (k : Bytes) :
    (exec H goodNet goodAdd (.find k) (execAll H net ref ops ⟨s0, t, st⟩)).1
      = match lastWrite k none (ops.zip (results H net ref ops ⟨s0, t, st⟩)) with | some v => .val v | none => .fail .notExist := by
  obtain ⟨hp, rfl⟩ := hp_of_new hH hs
  obtain ⟨_, _, M, hi, hr⟩ := execAll_spec hp net ref ops (inv_new hp none t st) hn
  rw [← SpecRun.last hr k]
  obtain ⟨_, _, M', _, _, _, hst⟩ := exec_spec hp goodNet goodAdd hi (.find k) (by simp [Op.target])
  generalize (exec H goodNet goodAdd (.find k) (execAll H net ref ops _)) = o at hst
  obtain ⟨r, c'⟩ := o
  cases hst with
  | find v h => rw [h]
  | findAbsent h => rw [h]
  | findFetch h => obtain ⟨u, x, _, _, h⟩ := h; cases h

/-- C35: after any history, enumeration lists exactly the current entries, each once. -/
theorem C35_enumerate (hH : ∀ k, (H k).length = 8) (hs : newShard ((2 ^ lg : Nat) : Int) = .ok s0) (hn : NoEmptyName ops) :
    ∃ ls, (exec H goodNet goodAdd (.forEach (fun _ => false)) (execAll H net ref ops ⟨s0, t, st⟩)).1 = .list ls none ∧
      Lists (fun k => lastWrite k none (ops.zip (results H net ref ops ⟨s0, t, st⟩))) ls := by
  obtain ⟨hp, rfl⟩ := hp_of_new hH hs
  obtain ⟨_, _, M, hi, hr⟩ := execAll_spec hp net ref ops (inv_new hp none t st) hn
  have hM : (fun k => lastWrite k none (ops.zip (results H net ref ops ⟨.mk (2 ^ lg) (bfNew (2 ^ lg)) [] none [] none, t, st⟩))) = M :=
    funext fun k => (SpecRun.last hr k).symm
  rw [hM]
  obtain ⟨_, _, M', _, _, _, hst⟩ := exec_spec hp goodNet goodAdd hi (.forEach (fun _ => false)) (by simp [Op.target])
  generalize (exec H goodNet goodAdd (.forEach (fun _ => false)) (execAll H net ref ops _)) = o at hst
  obtain ⟨r, c'⟩ := o
  cases hst with
  | each h => exact ⟨_, rfl, h⟩
  | eachStop h _ hl => cases hl
  | eachFetch _ _ h => obtain ⟨u, x, _, _, h⟩ := h; cases h

/-- C35 for shards loaded from any well-formed HAMT, in particular one that this code would not have
built (such as a sub-shard with a single entry): `cs` are the children of the root, in index order. -/
theorem C35_loaded (hp : HP H lg) {b : Builder} {cs : List Kid} (hw : WF (hix H lg) (2 ^ lg) (levels lg) 0 (fun _ => True) cs)
    (hst : ∀ x ∈ (Trie.node b cs).subs (2 ^ lg), GoodSub (· ∈ st) x) (hn : NoEmptyName ops) :
    ∃ s M, newHamtFromDag ((Trie.node b cs).toN (2 ^ lg)) = .ok s ∧
      SpecRun H net ref (Collide H lg) ⟨s, t, st⟩ (tfind (hix H lg) (levels lg) 0 cs) ops M := by
  obtain ⟨s, hl, hr⟩ := repS_load hp.valid (wf_idx hw) hst
  obtain ⟨_, _, M, _, h⟩ := execAll_spec hp net ref ops (c := ⟨s, t, st⟩) ⟨hr, ⟨hw, fun k => rfl⟩⟩ hn
  exact ⟨s, M, hl, h⟩

/-- C35: with a network that fails at the first fetch and a store that refuses the second addition. -/
example : results H0 (fun t _ => t ≠ 0) (fun j => j = 1) (exOps ++ [.find [0x11], .find [0x10], .find [0x99]]) ⟨exS 8, 0, []⟩ ≠
    results H0 goodNet goodAdd (exOps ++ [.find [0x11], .find [0x10], .find [0x99]]) ⟨exS 8, 0, []⟩ := by decide +kernel

/-! ### C36: shape -/

/-- C36: two histories, each with its own failures of network and store, after which every name is
mapped to the same value, end with the same serialised DAG. -/
theorem C36_same_shape (hH : ∀ k, (H k).length = 8) (hs : newShard ((2 ^ lg : Nat) : Int) = .ok s0) (bd : Option Builder)
    {net1 net2 : Net} {ref1 ref2 : Nat → Bool} {ops1 ops2 : List Op} {c1 c2 : Cfg} (hn1 : NoEmptyName ops1) (hn2 : NoEmptyName ops2)
    (hb1 : ∀ op ∈ ops1, ∀ b, op ≠ .setCidBuilder b) (hb2 : ∀ op ∈ ops2, ∀ b, op ≠ .setCidBuilder b)
    (h1 : c1 = execAll H net1 ref1 ops1 ⟨s0.setCidBuilder bd, t, st⟩) (h2 : c2 = execAll H net2 ref2 ops2 ⟨s0.setCidBuilder bd, t, st⟩)
    (hsame : ∀ k, (exec H goodNet goodAdd (.find k) c1).1 = (exec H goodNet goodAdd (.find k) c2).1) :
    ∃ nd, (exec H goodNet goodAdd .node c1).1 = .node nd ∧ (exec H goodNet goodAdd .node c2).1 = .node nd := by
  obtain ⟨hp, rfl⟩ := hp_of_new hH hs
  obtain ⟨cs1, M1, i1, k1⟩ := exec_canon hp net1 ref1 ops1 (inv_new hp bd t st) (canon_nil _ _) hn1 hb1
  obtain ⟨cs2, M2, i2, k2⟩ := exec_canon hp net2 ref2 ops2 (inv_new hp bd t st) (canon_nil _ _) hn2 hb2
  have hc1 : Inv H lg (pbBuilder bd) cs1 c1 M1 := by rw [h1]; exact i1
  have hc2 : Inv H lg (pbBuilder bd) cs2 c2 M2 := by rw [h2]; exact i2
  have hfind : ∀ {cs : List Kid} {c : Cfg} {M : NMap}, Inv H lg (pbBuilder bd) cs c M → ∀ k,
      (exec H goodNet goodAdd (.find k) c).1 = match M k with | some v => .val v | none => .fail .notExist := by
    intro cs c M hi k
    obtain ⟨_, _, M', _, _, _, hst⟩ := exec_spec hp goodNet goodAdd hi (.find k) (by simp [Op.target])
    generalize (exec H goodNet goodAdd (.find k) c) = o at hst
    obtain ⟨r, c'⟩ := o
    cases hst with
    | find v h => rw [h]
    | findAbsent h => rw [h]
    | findFetch h => obtain ⟨u, x, _, _, h⟩ := h; cases h
  have hM : ∀ k, M1 k = M2 k := by
    intro k
    have := hsame k
    rw [hfind hc1 k, hfind hc2 k] at this
    cases e1 : M1 k <;> cases e2 : M2 k <;> rw [e1, e2] at this <;> simp_all
  have heq : cs1 = cs2 := by
    refine canon_unique (pbBuilder bd) (levels lg) 0 anyKey cs1 cs2 i1.holds.wf i2.holds.wf k1 k2 ?_
    intro k _
    rw [← i1.holds.map, ← i2.holds.map, hM k]
  subst heq
  obtain ⟨he, _⟩ := exec_det hp hc1 hc2 .node (by simp [Op.target])
  obtain ⟨_, _, _, _, _, _, hst⟩ := exec_spec hp goodNet goodAdd hc1 .node (by simp [Op.target])
  generalize (exec H goodNet goodAdd .node c1) = o at hst he
  obtain ⟨r, c'⟩ := o
  cases hst with
  | node => exact ⟨_, rfl, he.symm⟩
  | nodeAdd h => obtain ⟨j, _, _, h⟩ := h; cases h

/-- C36: the two histories above meet the hypotheses. -/
example : ∃ nd, (exec H0 goodNet goodAdd .node (execAll H0 goodNet goodAdd exOps ⟨exS 8, 0, []⟩)).1 = .node nd ∧
    (exec H0 goodNet goodAdd .node (execAll H0 goodNet goodAdd exOps' ⟨exS 8, 0, []⟩)).1 = .node nd := by
  refine C36_same_shape H0_length exS_new none exOps_ne exOps'_ne (by simp [exOps]) (by simp [exOps']) rfl rfl (fun k => ?_)
  have h1 := C35_find_last (net := goodNet) (ref := goodAdd) (t := 0) (st := []) H0_length exS_new exOps_ne k
  have h2 := C35_find_last (net := goodNet) (ref := goodAdd) (t := 0) (st := []) H0_length exS_new exOps'_ne k
  rw [exRes] at h1
  rw [exRes'] at h2
  refine h1.trans (Eq.trans ?_ h2.symm)
  simp only [exOps, exOps', List.zip_cons_cons, lastWrite, List.zip_nil_left]
  by_cases e1 : [0x11] = k
  · subst e1; decide
  · by_cases e2 : [0x10] = k
    · subst e2; decide
    · by_cases e3 : [0x99] = k
      · subst e3; decide
      · by_cases e4 : [0x11, 1] = k
        · subst e4; decide
        · simp [e1, e2, e3, e4]

/-! ### C37: round trip -/

/-- C37: when `Node` succeeds, its result can be loaded, every name is found in the loaded shard
exactly as in the original, and every shard node that the result refers to, directly or not, was
added to the DAG service. -/
theorem C37_round_trip (hH : ∀ k, (H k).length = 8) (hs : newShard ((2 ^ lg : Nat) : Int) = .ok s0) (hn : NoEmptyName ops) {c : Cfg}
    (hc : c = execAll H net ref ops ⟨s0, t, st⟩) {nd : Node} {st' : List Node} (hnd : c.shard.toNode ref c.st = (.ok nd, st')) :
    (∃ s', newHamtFromDag nd = .ok s' ∧ ∀ ops', NoEmptyName ops' → results H goodNet goodAdd ops' ⟨s', c.t, st'⟩ = results H goodNet goodAdd ops' c) ∧
    ∀ x, SubShard (digits (2 ^ lg)) nd x → x ∈ st' := by
  obtain ⟨hp, rfl⟩ := hp_of_new hH hs
  obtain ⟨b, cs, M, hi, _⟩ := execAll_spec hp net ref ops (inv_new hp none t st) hn
  rw [← hc] at hi
  obtain ⟨⟨ext, he, _⟩, h⟩ := toNode_sim hp ref (levels lg + 1) c.shard b cs hi.rep ⟨_, _, _, hi.holds.wf, by omega⟩ c.st
  rw [hnd] at h he
  simp only at h he
  rcases h with ⟨h, _⟩ | ⟨h, hx⟩
  · cases h
  · simp only [Except.ok.injEq] at h
    have hx' : ∀ x ∈ (Trie.node b cs).subs (2 ^ lg), GoodSub (· ∈ st') x :=
      fun x hm => (hx x hm).mono (fun y hy => hy.elim (fun h => by rw [he]; simp [h]) id)
    obtain ⟨s', hl, hr⟩ := repS_load hp.valid (wf_idx hi.holds.wf) hx'
    refine ⟨⟨s', by rw [h]; exact hl, fun ops' hn' => ?_⟩, fun x hxs => ?_⟩
    · exact results_det hp ops' (M1 := M) (M2 := M) ⟨hr, hi.holds⟩ hi hn'
    · rw [h] at hxs
      exact (hx' x (subShard_subs hp _ _ _ b cs x hi.holds.wf hxs)).1

/-- The names of the links of the nodes along the first links, from the root. -/
def spine : Nat → Node → List (List Bytes)
  | 0, _ => []
  | n + 1, .proto _ ls _ => ls.map Link.name :: (match ls with | l :: _ => spine n l.target | [] => [])
  | _, _ => []

/-- C37, C55, C61: `Node` succeeds; the two entries, which share the slices 0 and 4, are below two
sub-shards. -/
example : (match (execAll H0 goodNet goodAdd exOps ⟨exS 8, 0, []⟩).shard.toNode goodAdd (execAll H0 goodNet goodAdd exOps ⟨exS 8, 0, []⟩).st with
    | (.ok nd, st') => (spine 3 nd, st'.length)
    | _ => ([], 0)) = ([[[48]], [[52]], [[48, 0x10], [50, 0x11]]], 9) := by decide +kernel

/-- C37: the refused addition makes `Node` fail. -/
example : (match (execAll H0 goodNet goodAdd exOps ⟨exS 8, 0, []⟩).shard.toNode (fun j => j = 5) (execAll H0 goodNet goodAdd exOps ⟨exS 8, 0, []⟩).st with
    | (.error e, _) => some e
    | _ => none) = some .addFailed := by decide +kernel

/-! ### C38: lazy loading -/

/-- C38: loading any set of children of a reachable shard changes no result of any later history. -/
theorem C38_lazy (hH : ∀ k, (H k).length = 8) (hs : newShard ((2 ^ lg : Nat) : Int) = .ok s0) (hn : NoEmptyName ops) {c : Cfg}
    (hc : c = execAll H net ref ops ⟨s0, t, st⟩) {s' : Shard} (hl : Loads c.shard s') {ops' : List Op} (hn' : NoEmptyName ops') (t' : Nat) :
    results H goodNet goodAdd ops' ⟨s', t', c.st⟩ = results H goodNet goodAdd ops' c := by
  obtain ⟨hp, rfl⟩ := hp_of_new hH hs
  obtain ⟨b, cs, M, hi, _⟩ := execAll_spec hp net ref ops (inv_new hp none t st) hn
  rw [← hc] at hi
  exact results_det hp ops' (M1 := M) (M2 := M) ⟨loads_rep hp hl _ _ _ _ _ hi.holds.wf hi.rep, hi.holds⟩ hi hn'

/-- C38: after `reload` the shard has a link that can be loaded. -/
example : ∃ s', Loads (execAll H0 goodNet goodAdd (exOps ++ [.reload]) ⟨exS 8, 0, []⟩).shard s' ∧
    s' ≠ (execAll H0 goodNet goodAdd (exOps ++ [.reload]) ⟨exS 8, 0, []⟩).shard := by
  have h : ((match (execAll H0 goodNet goodAdd (exOps ++ [.reload]) ⟨exS 8, 0, []⟩).shard.slots[0]? with | some (.link _) => true | _ => false) = true) ∧
      (match (execAll H0 goodNet goodAdd (exOps ++ [.reload]) ⟨exS 8, 0, []⟩).shard.get goodNet 0 0 with
        | (.ok (_, s'), _) => (match Shard.slots s' with | .child _ :: _ => true | _ => false)
        | _ => false) = true := by decide +kernel
  generalize (execAll H0 goodNet goodAdd (exOps ++ [.reload]) ⟨exS 8, 0, []⟩).shard = s at h
  obtain ⟨h1, h2⟩ := h
  split at h1
  case h_2 => cases h1
  rename_i l hl
  generalize hg : s.get goodNet 0 0 = g at h2
  split at h2
  case h_2 => cases h2
  rename_i c s' t
  refine ⟨s', .here hl hg, ?_⟩
  rintro rfl
  cases hs : s'.slots with
  | nil => rw [hs] at h2; cases h2
  | cons a l => rw [hs] at h2 hl; cases hl; cases h2

/-! ### C44, C45: acceptance of names -/

/-- C44 is violated for the empty name: `Set` reports success, but `Find` does not find the entry.
Any hash function, any node. -/
theorem C44_empty_name_lost (hH : ∀ k, (H k).length = 8) (nd : Node) :
    ∃ s0, newShard 256 = .ok s0 ∧ (exec H goodNet goodAdd (.set [] nd) ⟨s0, 0, []⟩).1 = .done ∧
      (exec H goodNet goodAdd (.find []) (exec H goodNet goodAdd (.set [] nd) ⟨s0, 0, []⟩).2).1 = .fail .notExist := by
  refine ⟨_, rfl, ?_⟩
  have hs : newShard ((2 ^ 8 : Nat) : Int) = .ok (.mk 256 (bfNew 256) [] none [] none) := makeShard_valid (size := 256) ⟨8, by omega, by omega, rfl⟩ [] none
  obtain ⟨hp, _⟩ := hp_of_new (H := H) (lg := 8) hH hs
  have hidx : hix H 8 [] 0 < 256 := hix_lt (lg := 8) [] 0
  generalize hi : hix H 8 [] 0 = i at hidx
  have hn0 : nextBits (H []) 0 8 = .ok (i, 8) := by have := next_ok hp [] (n := 7) (d := 0) rfl; rw [hi] at this; exact this
  have hn1 : nextBits (H []) 8 8 = .ok (hix H 8 [] 1, 16) := next_ok hp [] (n := 6) (d := 1) rfl
  have hlg : ∀ bf ss b k v, Shard.lg (.mk 256 bf ss b k v) = 8 := fun _ _ _ _ _ => lg_eq hp rfl
  have hb : IsBf 256 (bfNew 256) [] := isBf_new (by decide)
  have hb' : IsBf 256 (bfSet (bfNew 256) i) [i] := isBf_set hb hidx (by simp)
  have hbit : bfBit (bfNew 256) i = false := by rw [hb.bit i hidx]; simp
  have hbit' : bfBit (bfSet (bfNew 256) i) i = true := by rw [hb'.bit i hidx]; simp
  have ho : bfOnesBefore (bfNew 256) i = 0 := by rw [onesBefore_eq hb hidx]; simp
  have ho' : bfOnesBefore (bfSet (bfNew 256) i) i = 0 := by
    rw [onesBefore_eq hb' hidx, List.length_eq_zero_iff, List.filter_eq_nil_iff]
    intro a ha; have := List.mem_range.mp ha; simp; omega
  have hf : Shard.fuel H [] = 63 + 1 + 1 := by rw [Shard.fuel, hH]
  have hmk : ∀ v, makeShard 256 [] v = .ok (.mk 256 (bfNew 256) [] none [] v) := by
    intro v
    have := makeShard_valid (size := 256) ⟨8, by omega, by omega, rfl⟩ [] v
    exact this
  obtain ⟨l, hset⟩ : ∃ l, exec H goodNet goodAdd (.set [] nd) ⟨.mk 256 (bfNew 256) [] none [] none, 0, []⟩
      = (.done, ⟨.mk 256 (bfSet (bfNew 256) i) [.child (.mk 256 (bfNew 256) [] none [] (some l))] none [] none, 0, [nd]⟩) := by
    have hin : ∀ l, Shard.insert (.mk 256 (bfNew 256) [] none [] none) [] (some l) i
        = .ok (.mk 256 (bfSet (bfNew 256) i) [.child (.mk 256 (bfNew 256) [] none [] (some (Link.rename l (linkNamePrefix 256 i ++ []))))] none [] none) := by
      intro l
      rw [Shard.insert]
      dsimp only
      rw [show Shard.size (.mk 256 (bfNew 256) [] none [] none) = 256 from rfl, hmk]
      dsimp only
      rw [show Shard.sliceIndex (.mk 256 (bfNew 256) [] none [] none) i = 0 from ho]
      rfl
    rw [exec]
    dsimp only
    rw [Shard.swap, if_neg (by simp [goodAdd]), hf, Shard.swapValue, hlg, hn0]
    dsimp only
    rw [Shard.bf, if_pos hbit, hin]
    exact ⟨_, rfl⟩
  rw [show (Shard.mk (256 : Int).toNat (bfNew (256 : Int).toNat) [] none [] none) = .mk 256 (bfNew 256) [] none [] none from rfl, hset]
  refine ⟨rfl, ?_⟩
  rw [exec]
  dsimp only
  rw [Shard.find, hf, Shard.getValue, hlg, hn0]
  dsimp only
  rw [if_neg (by rw [Shard.bf, hbit']; simp)]
  rw [show Shard.sliceIndex (.mk 256 (bfSet (bfNew 256) i) [.child (.mk 256 (bfNew 256) [] none [] (some l))] none [] none) i = 0 from ho', Shard.get]
  dsimp only [Shard.slots, List.getElem?_cons_zero]
  rw [if_neg (by simp [Shard.isValueNode, Shard.key]), Shard.getValue, hlg, hn1]
  dsimp only
  rw [Shard.bf, if_pos (bfBit_new 256 _)]

/-- C44 for non-empty names (missing: the empty name): a name that `Set` accepted is found. -/
theorem C44_found_partial (hH : ∀ k, (H k).length = 8) (hs : newShard ((2 ^ lg : Nat) : Int) = .ok s0) (hn : NoEmptyName ops) {c : Cfg}
    (hc : c = execAll H net ref ops ⟨s0, t, st⟩) {name : Bytes} (hne : name ≠ []) (nd : Node) (hset : (exec H net ref (.set name nd) c).1 = .done) :
    (exec H goodNet goodAdd (.find name) (exec H net ref (.set name nd) c).2).1 = .val (nd.size, nd) := by
  obtain ⟨hp, rfl⟩ := hp_of_new hH hs
  obtain ⟨b, cs, M, hi, _⟩ := execAll_spec hp net ref ops (inv_new hp none t st) hn
  rw [← hc] at hi
  obtain ⟨b', cs', M', hi', _, _, h1⟩ := exec_spec hp net ref hi (.set name nd) (by simp [Op.target, hne])
  obtain ⟨_, _, _, _, _, _, h2⟩ := exec_spec hp goodNet goodAdd hi' (.find name) (by simp [Op.target])
  have hM : M' name = some (nd.size, nd) := by
    generalize (exec H net ref (.set name nd) c) = o at hset h1
    obtain ⟨r, c'⟩ := o
    simp only at hset
    subst hset
    cases h1 with
    | set h => cases h; simp [NMap.upd]
  generalize (exec H goodNet goodAdd (.find name) (exec H net ref (.set name nd) c).2) = o at h2
  obtain ⟨r, c'⟩ := o
  cases h2 with
  | find v h => rw [hM] at h; cases h; rfl
  | findAbsent h => rw [hM] at h; cases h
  | findFetch h => obtain ⟨u, x, _, _, h⟩ := h; cases h

/-- C44: a name can be set. -/
example : results H0 goodNet goodAdd [.set [7] (exNd 1), .set [] (exNd 1), .find []] ⟨exS 8, 0, []⟩ = [.done, .done, .fail .notExist] := by decide +kernel

/-- C45: if `name` is not stored but a name with the same usable hash bits is, then `Set(name)` fails,
with `ErrTooDeep` if network and store work, and afterwards every lookup, enumeration and update gives the
result it would have given before. -/
theorem C45_collision (hH : ∀ k, (H k).length = 8) (hs : newShard ((2 ^ lg : Nat) : Int) = .ok s0) (hn : NoEmptyName ops) {c : Cfg}
    (hc : c = execAll H net ref ops ⟨s0, t, st⟩) {name other : Bytes} (hne : name ≠ []) (hcol : Collide H lg name other)
    (habs : (exec H goodNet goodAdd (.find name) c).1 = .fail .notExist) {v : LinkVal} (hoth : (exec H goodNet goodAdd (.find other) c).1 = .val v) (nd : Node) :
    (∃ e, (exec H net ref (.set name nd) c).1 = .fail e) ∧ (exec H goodNet goodAdd (.set name nd) c).1 = .fail .tooDeep ∧
    ∀ ops', NoEmptyName ops' → results H goodNet goodAdd ops' (exec H net ref (.set name nd) c).2 = results H goodNet goodAdd ops' c := by
  obtain ⟨hp, rfl⟩ := hp_of_new hH hs
  obtain ⟨b, cs, M, hi, _⟩ := execAll_spec hp net ref ops (inv_new hp none t st) hn
  rw [← hc] at hi
  have hM1 : M name = none := by
    obtain ⟨_, _, _, _, _, _, h2⟩ := exec_spec hp goodNet goodAdd hi (.find name) (by simp [Op.target])
    rw [habs] at h2
    cases h2 with | findAbsent h => exact h
  have hM2 : M other = some v := by
    obtain ⟨_, _, _, _, _, _, h2⟩ := exec_spec hp goodNet goodAdd hi (.find other) (by simp [Op.target])
    rw [hoth] at h2
    cases h2 with | find _ h => exact h
  have hno : name ≠ other := by rintro rfl; rw [hM1] at hM2; cases hM2
  obtain ⟨s, t, st⟩ := c
  have hcore : ∀ (net : Net) (ref : Nat → Bool), ∃ e, (exec H net ref (.set name nd) ⟨s, t, st⟩).1 = .fail e ∧
      (e = .tooDeep ∨ (∃ u x, net u x = false) ∨ ∃ j, ref j = true) ∧ Inv H lg b cs (exec H net ref (.set name nd) ⟨s, t, st⟩).2 M := by
    intro net ref
    simp only [exec, Shard.swap]
    by_cases hrf : ref st.length = true
    · rw [if_pos hrf]
      exact ⟨_, rfl, .inr (.inr ⟨_, hrf⟩), hi⟩
    · rw [if_neg hrf]
      generalize he : Shard.swapValue H net (Shard.fuel H name) s 0 name (some (makeLink (linkNamePrefix s.size 0 ++ name) nd)) t = out
      obtain ⟨r, s', t'⟩ := out
      have hm : ∀ x, x ∈ st → x ∈ nd :: st := fun x hx => by simp [hx]
      rcases swap_root hp net hi.rep hi.holds name hne _ (by rintro l ⟨⟩; exact root_name hp hi.rep name) t he with ⟨lo, cs', _, _, _, h3, _, _⟩ | ⟨h4, h5⟩
      · obtain ⟨j, _, hj, hd⟩ := wf_sep (levels lg) 0 anyKey cs' name other h3.wf
          (by rw [← h3.map]; simp [NMap.upd]) (by rw [← h3.map, NMap.upd, if_neg (fun h => hno h.symm), hM2]; simp) hno
        exact absurd ((collide_iff hp name other).mpr hcol j (by omega)) hd
      · have hi' : Inv H lg b cs ⟨s', t', nd :: st⟩ M := ⟨RepS.mono hm _ _ h4, hi.holds⟩
        rcases h5 with ⟨h5, _⟩ | ⟨_, _, h5⟩ | ⟨h5, h6⟩
        · subst h5; exact ⟨_, rfl, .inl rfl, hi'⟩
        · cases h5
        · subst h5
          obtain ⟨u, x, _, _, h⟩ := h6.failed
          exact ⟨_, rfl, .inr (.inl ⟨u, x, h⟩), hi'⟩
  refine ⟨(hcore net ref).imp fun _ h => h.1, ?_, fun ops' hn' => ?_⟩
  · obtain ⟨e, h1, h2, _⟩ := hcore goodNet goodAdd
    rcases h2 with rfl | ⟨_, _, h⟩ | ⟨_, h⟩
    · exact h1
    · cases h
    · cases h
  · obtain ⟨e, _, _, h⟩ := hcore net ref
    exact results_det hp ops' h hi hn'

/-- C45: names that differ in the ninth byte only collide, and the hypotheses are met. -/
example : Collide H0 3 [1, 2, 3, 4, 5, 6, 7, 8, 9] [1, 2, 3, 4, 5, 6, 7, 8] ∧
    results H0 goodNet goodAdd [.set [1, 2, 3, 4, 5, 6, 7, 8] (exNd 1), .find [1, 2, 3, 4, 5, 6, 7, 8, 9], .find [1, 2, 3, 4, 5, 6, 7, 8],
      .set [1, 2, 3, 4, 5, 6, 7, 8, 9] (exNd 2), .find [1, 2, 3, 4, 5, 6, 7, 8]] ⟨exS 8, 0, []⟩
      = [.done, .fail .notExist, .val ((exNd 1).size, exNd 1), .fail .tooDeep, .val ((exNd 1).size, exNd 1)] := by
  constructor
  · unfold Collide; decide +kernel
  · decide +kernel

/-! ### C43, C55: link names and their order -/

/-- C43: for every accepted width and every index, the prefix has the fixed number of digits and is
the index in upper-case hexadecimal; removing it recovers the entry's name; the order of indices is
the order of names, whatever the names of the entries. -/
theorem C43_link_names {size : Nat} (hs : ∃ s, newShard size = .ok s) {i : Nat} (hi : i < size) :
    (linkNamePrefix size i).length = digits size ∧ hexVal (linkNamePrefix size i) = some i ∧
    (∀ name, (linkNamePrefix size i ++ name).drop (maxpadlen size) = name) ∧
    (∀ j, j < size → i < j → ∀ m n, NameLt (linkNamePrefix size i ++ m) (linkNamePrefix size j ++ n)) ∧
    (∀ name v tgt, childLinkType size (.mk (linkNamePrefix size i ++ name) v tgt) = .ok (if name = [] then .shardLink else .shardValueLink)) := by
  obtain ⟨s, hs⟩ := hs
  obtain ⟨k, h1, h2, h3, _⟩ := (makeShard_iff _ _ _ _).mp hs
  have hv : ValidSize size := ⟨k, h1, h2, by exact_mod_cast h3⟩
  have hl := prefix_length hv hi
  refine ⟨by rw [hl, maxpadlen_digits hv], prefix_hex hv hi, fun name => List.drop_left' hl, fun j hj hij m n => ?_, fun name v tgt => ?_⟩
  · exact nameLt_append _ _ (by rw [hl, prefix_length hv hj]) (prefix_lt hv hij hj)
  · rw [childLinkType]
    simp only [Link.name, List.length_append, hl]
    rw [if_neg (by omega)]
    by_cases h : name = []
    · subst h; simp
    · rw [if_neg h, if_neg]
      have : name.length ≠ 0 := fun h' => h (List.length_eq_zero_iff.mp h')
      omega

example : linkNamePrefix 256 10 = [48, 65] ∧ linkNamePrefix 1024 1023 = [51, 70, 70] ∧ linkNamePrefix 8 7 = [55] := by decide +kernel

/-- C55, C43: every shard node of a serialised reachable shard, at any depth, has the format: one
link for each occupied index in index order, which is also the order of names; and names sit where
their hashes say. -/
theorem C55_format (hH : ∀ k, (H k).length = 8) (hs : newShard ((2 ^ lg : Nat) : Int) = .ok s0) (hn : NoEmptyName ops) {c : Cfg}
    (hc : c = execAll H net ref ops ⟨s0, t, st⟩) {nd : Node} {st' : List Node} (hnd : c.shard.toNode ref c.st = (.ok nd, st'))
    {p : List Nat} {x : Node} (hx : SubShardAt (digits (2 ^ lg)) nd p x) : ∃ d ls b, x = .proto d ls b ∧ Format H lg p d ls := by
  obtain ⟨hp, rfl⟩ := hp_of_new hH hs
  obtain ⟨b, cs, M, hi, _⟩ := execAll_spec hp net ref ops (inv_new hp none t st) hn
  rw [← hc] at hi
  obtain ⟨_, h⟩ := toNode_sim hp ref (levels lg + 1) c.shard b cs hi.rep ⟨_, _, _, hi.holds.wf, by omega⟩ c.st
  rw [hnd] at h
  simp only at h
  rcases h with ⟨h, _⟩ | ⟨h, _⟩
  · cases h
  · simp only [Except.ok.injEq] at h
    rw [h] at hx
    obtain ⟨m, b', cs', h1, h2, h3, _⟩ := subShardAt_wf hp b _ _ _ _ _ _ _ hi.holds.wf hx
    rw [Nat.zero_add] at h3
    obtain ⟨d, ls, h4, h5⟩ := format_of (b := b') hp (le_of_eq h1) (fun k hk j hj => by have := hk.2 j hj; rwa [Nat.zero_add] at this) h3
    exact ⟨d, ls, b', by rw [h2, h4], h5⟩

/-- The root of a shard of two levels. -/
example : ∃ nd, ((execAll H0 goodNet goodAdd exOps ⟨exS 8, 0, []⟩).shard.toNode goodAdd (execAll H0 goodNet goodAdd exOps ⟨exS 8, 0, []⟩).st).1 = .ok nd ∧
    ∃ d ls b, nd = .proto d ls b ∧ Format H0 3 [] d ls := by
  have h : ∀ r : Except Err Node × List Node, (match r.1 with | .ok _ => true | .error _ => false) = true → ∃ nd st, r = (.ok nd, st) := by
    rintro ⟨r | r, st⟩ h
    · cases h
    · exact ⟨r, st, rfl⟩
  obtain ⟨nd, st, e⟩ := h ((execAll H0 goodNet goodAdd exOps ⟨exS 8, 0, []⟩).shard.toNode goodAdd (execAll H0 goodNet goodAdd exOps ⟨exS 8, 0, []⟩).st) (by decide +kernel)
  exact ⟨nd, by rw [e], C55_format H0_length exS_new exOps_ne rfl e (.self nd)⟩

/-- C55: in memory, the child for an occupied index sits at the position given by the number of
occupied indices below it, and there are as many children as occupied indices. -/
theorem C55_positions (hH : ∀ k, (H k).length = 8) (hs : newShard ((2 ^ lg : Nat) : Int) = .ok s0) (hn : NoEmptyName ops) {c : Cfg}
    (hc : c = execAll H net ref ops ⟨s0, t, st⟩) :
    c.shard.slots.length = ((List.range (2 ^ lg)).filter (fun i => bfBit c.shard.bf i)).length ∧
    ∀ i < 2 ^ lg, c.shard.sliceIndex i = ((List.range i).filter (fun j => bfBit c.shard.bf j)).length := by
  obtain ⟨hp, rfl⟩ := hp_of_new hH hs
  obtain ⟨b, cs, M, hi, _⟩ := execAll_spec hp net ref ops (inv_new hp none t st) hn
  rw [← hc] at hi
  obtain ⟨h1, h2, h3, h4, h5, h6⟩ := repS_node.mp hi.rep
  have hsort : Sorted cs := by
    have := hi.holds.wf
    cases h : levels lg with
    | zero => rw [h] at this; exact this.elim
    | succ n => rw [h] at this; exact this.sorted
  constructor
  · rw [((repL_iff _ _).mp h6).length_eq, ← List.length_map (f := Kid.idx), ← idxs, ← filter_range_idxs hsort (wf_idx hi.holds.wf)]
    congr 1
    apply List.filter_congr
    intro i hi'
    rw [h5.bit i (List.mem_range.mp hi')]
  · intro i hlt
    rw [Shard.sliceIndex, onesBefore_eq h5 hlt]
    congr 1
    apply List.filter_congr
    intro j hj
    rw [h5.bit j (by have := List.mem_range.mp hj; omega)]

/-! ### C61: no needless sub-shards -/

/-- C61: in a serialised shard, no shard node but the root is empty or has a single entry as its
only child: the trie is no deeper than the hashes force it to be. -/
theorem C61_no_needless_subshard (hH : ∀ k, (H k).length = 8) (hs : newShard ((2 ^ lg : Nat) : Int) = .ok s0) (hn : NoEmptyName ops)
    (hb : ∀ op ∈ ops, ∀ b, op ≠ .setCidBuilder b) {c : Cfg}
    (hc : c = execAll H net ref ops ⟨s0, t, st⟩) {nd : Node} {st' : List Node} (hnd : c.shard.toNode ref c.st = (.ok nd, st'))
    {p : List Nat} {d : Bytes} {ls : List Link} {bx : Builder} (hx : SubShardAt (digits (2 ^ lg)) nd p (.proto d ls bx)) (hp0 : p ≠ []) :
    2 ≤ ls.length ∨ ∃ l, ls = [l] ∧ l.name.length = digits (2 ^ lg) := by
  obtain ⟨hp, rfl⟩ := hp_of_new hH hs
  obtain ⟨cs, M, hi, hcan⟩ := exec_canon hp net ref ops (inv_new hp none t st) (canon_nil _ _) hn hb
  have hi : Inv H lg (pbBuilder none) cs c M := by rw [hc]; exact hi
  obtain ⟨_, h⟩ := toNode_sim hp ref (levels lg + 1) c.shard _ cs hi.rep ⟨_, _, _, hi.holds.wf, by omega⟩ c.st
  rw [hnd] at h
  simp only at h
  rcases h with ⟨h, _⟩ | ⟨h, _⟩
  · cases h
  · simp only [Except.ok.injEq] at h
    rw [h] at hx
    obtain ⟨m, b', cs', _, h2, h3, h4⟩ := subShardAt_wf hp (pbBuilder none) _ _ _ _ _ _ _ hi.holds.wf hx
    obtain ⟨_, hnc⟩ := (h4 hcan).2 (.inl hp0)
    rw [Trie.toN] at h2
    simp only [Node.proto.injEq] at h2
    rw [h2.2.1, kidLinks_eq]
    match cs', hnc, h3 with
    | [], hnc, _ => exact absurd rfl hnc.1
    | [.mk i (.leaf k v)], hnc, _ => exact absurd rfl (hnc.2 i k v)
    | [.mk i (.node b'' cs'')], _, h3 =>
      right
      have hlt : i < 2 ^ lg := wf_idx h3 i (by simp [idxs])
      refine ⟨_, rfl, ?_⟩
      simp only [Kid.idx_mk, Kid.trie_mk, Link.name, Trie.tkey, List.append_nil, prefix_length hp.valid hlt, maxpadlen_digits hp.valid]
    | _ :: _ :: _, _, _ => left; simp

end Unixfs.Props
