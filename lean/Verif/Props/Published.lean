import Verif.Hamt.Published
import Verif.Props.Hamt
import Verif.Props.DirBuilder

/-!
# C111: the node of a sharded directory is the published HAMT of its entries

`Spec.HamtForm` (Verif/Spec/Published.lean) gives the HAMT of a list of entries as the UnixFS specification describes it. -/

namespace Unixfs.Props
open Unixfs.Hamt Unixfs.Spec

section
variable {H : Hash} {lg : Nat} {s0 : Shard} {net : Net} {ref : Nat → Bool} {t : Nat} {st : List Node} {ops : List Op}

theorem find_inv (hp : HP H lg) {b : Builder} {cs : List Kid} {c : Cfg} {M : NMap} (hi : Inv H lg b cs c M) (k : Bytes) :
    (exec H goodNet goodAdd (.find k) c).1 = match M k with | some v => .val v | none => .fail .notExist := by
  obtain ⟨_, _, M', _, _, _, hst⟩ := exec_spec hp goodNet goodAdd hi (.find k) (by simp [Op.target])
  generalize (exec H goodNet goodAdd (.find k) c) = o at hst
  obtain ⟨r, c'⟩ := o
  cases hst with
  | find v h => rw [h]
  | findAbsent h => rw [h]
  | findFetch h => obtain ⟨u, x, _, _, h⟩ := h; cases h

theorem finds_iff (hp : HP H lg) {b : Builder} {cs : List Kid} {c : Cfg} {M : NMap} (hi : Inv H lg b cs c M) {es : List Entry} :
    Finds H c es ↔ ListsT (H := H) (lg := lg) (levels lg) 0 cs es := by
  constructor
  · rintro ⟨h1, h2, h3⟩
    refine ⟨h1, fun k v => ?_⟩
    rw [← hi.holds.map]
    constructor
    · intro h
      have := h2 _ h
      rw [find_inv hp hi] at this
      cases hM : M k with
      | none => simp only [hM] at this; cases this
      | some w => simp only [hM] at this; cases this; rfl
    · intro h
      by_cases hk : k ∈ es.map Prod.fst
      · obtain ⟨⟨k', v'⟩, he, rfl⟩ := List.mem_map.mp hk
        have := h2 _ he
        rw [find_inv hp hi] at this
        simp only [h] at this
        cases this; exact he
      · have := h3 _ hk
        rw [find_inv hp hi] at this
        simp only [h] at this
        cases this
  · rintro ⟨h1, h2⟩
    refine ⟨h1, ?_, ?_⟩
    · rintro ⟨k, v⟩ he
      rw [find_inv hp hi, hi.holds.map, (h2 k v).mp he]
    · intro k hk
      rw [find_inv hp hi, hi.holds.map]
      cases hf : tfind (hix H lg) (levels lg) 0 cs k with
      | none => rfl
      | some v => exact absurd (List.mem_map.mpr ⟨_, (h2 k v).mpr hf, rfl⟩) hk

theorem node_inv (hp : HP H lg) {b : Builder} {cs : List Kid} {c c' : Cfg} {M : NMap} (hi : Inv H lg b cs c M) (ref : Nat → Bool) {nd : Node}
    (hn : exec H net ref .node c = (.node nd, c')) : nd = (Trie.node b cs).toN (2 ^ lg) := by
  obtain ⟨_, h⟩ := toNode_sim hp ref (levels lg + 1) c.shard b cs hi.rep ⟨_, _, _, hi.holds.wf, by omega⟩ c.st
  simp only [exec] at hn
  rcases h with ⟨h, _⟩ | ⟨h, _⟩
  · generalize c.shard.toNode ref c.st = R at hn h
    obtain ⟨r, st'⟩ := R
    simp only at h hn
    subst h; cases hn
  · generalize c.shard.toNode ref c.st = R at hn h
    obtain ⟨r, st'⟩ := R
    simp only at h hn
    subst h; cases hn; rfl

/-- C111, writing: after any calls on a new shard, with any failures, `Node` gives the published HAMT of the entries that `Find` gives. The
node depends on nothing else of the history. -/
theorem C111_written (hH : ∀ k, (H k).length = 8) (hs : newShard ((2 ^ lg : Nat) : Int) = .ok s0) (bd : Option Builder) (hn : NoEmptyName ops)
    (hb : ∀ op ∈ ops, ∀ b, op ≠ .setCidBuilder b) {c c' : Cfg} (hc : c = execAll H net ref ops ⟨s0.setCidBuilder bd, t, st⟩)
    {net' : Net} {ref' : Nat → Bool} {nd : Node} (hnd : exec H net' ref' .node c = (.node nd, c')) :
    (∃ es, Finds H c es) ∧ ∀ es, Finds H c es → HamtForm H lg (pbBuilder bd) 0 es nd := by
  obtain ⟨hp, rfl⟩ := hp_of_new hH hs
  obtain ⟨cs, M, hi, hk⟩ := exec_canon hp net ref ops (inv_new hp bd t st) (canon_nil _ _) hn hb
  have hi : Inv H lg (pbBuilder bd) cs c M := by rw [hc]; exact hi
  refine ⟨?_, fun es he => ?_⟩
  · obtain ⟨l1, l2⟩ := entries_lists hi.holds
    refine ⟨entriesL cs, (finds_iff hp hi).mpr ⟨?_, fun k v => ?_⟩⟩
    · rw [List.map_map] at l1; exact l1
    · rw [← hi.holds.map, l2]
      constructor
      · intro h; exact List.mem_map.mpr ⟨_, h, rfl⟩
      · intro h
        obtain ⟨⟨k', v1, v2⟩, h, e⟩ := List.mem_map.mp h
        simp only [elink, Link.mk.injEq] at e
        obtain ⟨rfl, rfl, rfl⟩ := e
        exact h
  · rw [node_inv hp hi ref' hnd]
    exact published_of hp _ _ 0 _ cs es (by omega) hi.holds.wf hk ((finds_iff hp hi).mp he)

/-- C111: the literal form of a HAMT of width 8 with two entries whose hashes share the slices 0 and 4 and differ in the third, 0 and 2. -/
def exPub : Node :=
  .proto [0x08, 5, 0x12, 1, 0x01, 0x28, 0x22, 0x30, 8] [.mk [0x30] 155 (
    .proto [0x08, 5, 0x12, 1, 0x10, 0x28, 0x22, 0x30, 8] [.mk [0x34] 101 (
      .proto [0x08, 5, 0x12, 1, 0x05, 0x28, 0x22, 0x30, 8] [.mk [0x30, 0x10] 1 (exNd 4), .mk [0x32, 0x11] 1 (exNd 2)] .v0)] .v0)] .v0

/-- C111: the history above gives it. -/
theorem exPub_node : (exec H0 goodNet goodAdd .node (execAll H0 goodNet goodAdd exOps ⟨exS 8, 0, []⟩)).1 = .node exPub := by decide +kernel

theorem exPub_written : ∃ c', exec H0 goodNet goodAdd .node (execAll H0 goodNet goodAdd exOps ⟨exS 8, 0, []⟩) = (.node exPub, c') := by
  have h := exPub_node
  generalize exec H0 goodNet goodAdd .node (execAll H0 goodNet goodAdd exOps ⟨exS 8, 0, []⟩) = o at h ⊢
  exact ⟨o.2, Prod.ext h rfl⟩

def exEntries : List Entry := [([0x11], 1, exNd 2), ([0x10], 1, exNd 4)]

theorem exEntries_found : Finds H0 (execAll H0 goodNet goodAdd exOps ⟨exS 8, 0, []⟩) exEntries := by
  refine ⟨by decide, by decide +kernel, fun k hk => ?_⟩
  have h1 := C35_find_last (net := goodNet) (ref := goodAdd) (t := 0) (st := []) H0_length exS_new exOps_ne k
  rw [exRes] at h1
  refine h1.trans ?_
  simp only [exEntries, List.map_cons, List.map_nil, List.mem_cons, List.not_mem_nil, or_false, not_or] at hk
  simp only [exOps, List.zip_cons_cons, lastWrite, List.zip_nil_left]
  by_cases e : [0x11, 1] = k
  · subst e; decide
  · simp [e, Ne.symm hk.1, Ne.symm hk.2]

/-- C111: the hypotheses of `C111_written` are met. -/
theorem exPub_published : HamtForm H0 3 .v0 0 exEntries exPub := by
  obtain ⟨c', h⟩ := exPub_written
  exact (C111_written (bd := none) H0_length exS_new exOps_ne (by simp [exOps]) rfl h).2 _ exEntries_found

/-- C111: a shard without entries. -/
theorem exShard_form : HamtForm H0 8 .v0 0 [] (.proto [0x08, 5, 0x28, 0x22, 0x30, 0x80, 2] [] .v0) := by
  have := HamtForm.mk (H := H0) (lg := 8) (b := .v0) (d := 0) (es := []) (fun _ => exPub) (by omega) (by simp [inSlot])
  have e : shardBytes H0 8 0 [] = [0x08, 5, 0x28, 0x22, 0x30, 0x80, 2] := by decide +kernel
  have e' : (List.range (2 ^ 8)).filter (fun i => decide (inSlot H0 8 0 [] i ≠ [])) = [] := by simp [inSlot]
  rw [e, e'] at this
  exact this

/-- C111, reading: a published HAMT, however it was made, is loaded and has its entries. After any further calls, with any failures, `Node` gives the
published HAMT of the entries that are there then. -/
theorem C111_read (hH : ∀ k, (H k).length = 8) (hlo : 3 ≤ lg) (hhi : lg ≤ 10) {b : Builder} (hb : b.codec = 0x70) {es : List Entry} {nd : Node}
    (h : HamtForm H lg b 0 es nd) (hu : (es.map Prod.fst).Nodup) (hne : [] ∉ es.map Prod.fst) (hst : ∀ x, SubShard (digits (2 ^ lg)) nd x → x ∈ st) :
    ∃ s, newHamtFromDag nd = .ok s ∧ Finds H ⟨s, t, st⟩ es ∧
      ∀ net ref ops net' ref' c' nd' es', NoEmptyName ops → (∀ op ∈ ops, ∀ b, op ≠ .setCidBuilder b) →
        exec H net' ref' .node (execAll H net ref ops ⟨s, t, st⟩) = (.node nd', c') → Finds H (execAll H net ref ops ⟨s, t, st⟩) es' →
        HamtForm H lg b 0 es' nd' := by
  have hp : HP H lg := ⟨hH, hlo, hhi⟩
  obtain ⟨cs, hT⟩ := trie_of_published hp h (levels lg) anyKey (by omega) hu
    (fun e he => ⟨trivial, fun h0 => hne (h0 ▸ List.mem_map.mpr ⟨e, he, rfl⟩)⟩)
  have hB : b.withCodec 0x70 = b := by simp [Builder.withCodec, ← hb]
  obtain ⟨s, hl, hr⟩ := repS_load (A := (· ∈ st)) hp.valid (wf_idx hT.wf) (b := b) (cs := cs) (fun x hx => by
    obtain ⟨h1, d', ls, h2⟩ := hT.subs x hx
    exact ⟨hst x h1, d', ls, b, h2, hB⟩)
  have hi : Inv H lg b cs ⟨s, t, st⟩ (fun k => tfind (hix H lg) (levels lg) 0 cs k) := ⟨hr, hT.wf, fun _ => rfl⟩
  refine ⟨s, by rw [hT.node]; exact hl, (finds_iff hp hi).mpr hT.lists, ?_⟩
  intro net ref ops net' ref' c' nd' es' hn hbb hnd hf
  obtain ⟨cs', M', hi', hk'⟩ := exec_canon hp net ref ops hi hT.canon hn hbb
  rw [node_inv hp hi' ref' hnd]
  exact published_of hp _ _ 0 _ cs' es' (by omega) hi'.holds.wf hk' ((finds_iff hp hi').mp hf)

/-- C111: the hypotheses of `C111_read` are met, by a node with sub-shards. -/
example : ∃ s st, newHamtFromDag exPub = .ok s ∧ Finds H0 ⟨s, 0, st⟩ exEntries := by
  obtain ⟨st, hst⟩ : ∃ st : List Node, ∀ x, SubShard (digits (2 ^ 3)) exPub x → x ∈ st := by
    obtain ⟨c', h⟩ := exPub_written
    obtain ⟨nd, st', hnd⟩ : ∃ nd st', (execAll H0 goodNet goodAdd exOps ⟨exS 8, 0, []⟩).shard.toNode goodAdd (execAll H0 goodNet goodAdd exOps ⟨exS 8, 0, []⟩).st = (.ok nd, st') ∧ nd = exPub := by
      simp only [exec] at h
      split at h
      · next hn => cases h; exact ⟨_, _, hn, rfl⟩
      · cases h
    exact ⟨st', (C37_round_trip H0_length exS_new exOps_ne rfl (hnd.1.trans (by rw [hnd.2]))).2⟩
  obtain ⟨s, h1, h2, _⟩ := C111_read (t := 0) H0_length (by omega) (by omega) rfl exPub_published (by decide) (by decide) hst
  exact ⟨s, st, h1, h2⟩

/-- C111: the published HAMT of the entries is one node, whatever the order in which they are listed. -/
theorem C111_unique {b : Builder} {d : Nat} {es es' : List Entry} {nd nd' : Node} (h : HamtForm H lg b d es nd) (h' : HamtForm H lg b d es' nd')
    (hperm : es.Perm es') : nd = nd' := published_unique h hperm h'
end

section
open Unixfs.Dir
variable {env env' : Env} {lg : Nat} {ops : List DOp} {thr : Int} {n : Node} {c' : Dir.Cfg}

/-- C111 for directories: when a directory made by `NewDirectory` is in its HAMT form, after any calls and through any switches between the forms,
`GetNode` gives the published HAMT of the entries that the calls left. -/
theorem C111_directory (hv : env.Valid lg) (hr : env.Real) {bd : Option Builder} (hne : Dir.NoEmptyName ops) (hb : ∀ op ∈ ops, ∀ b, op ≠ .setCidBuilder b)
    {c : Dir.Cfg} (hc : c = Dir.execAll env (.setCidBuilder bd :: ops) (start newDirectory thr)) {h : HamtDir} (hh : c.dir = .hamt h)
    (hn : Dir.exec env' .getNode c = (.node n, c')) {es : List Entry}
    (hes : Lists (mapAfter env (mapOf []) (.setCidBuilder bd :: ops) (start newDirectory thr)) (es.map (fun e => .mk e.1 e.2.1 e.2.2))) :
    HamtForm env.H lg (pbBuilder bd) 0 es n := by
  obtain ⟨g1, g2, g3, g4⟩ := loaded_inv fresh_loaded (by simp)
  obtain ⟨M', i1, i2⟩ := execAll_dspec (W := (· = lg)) (bo := some (pbBuilder bd)) hr rfl hv.hp hv.width
    (by intro b0 h; cases h; exact Dir.pbBuilder_fix bd) ops (c := (Dir.exec env (.setCidBuilder bd) (start newDirectory thr)).2) (M := mapOf [])
    ⟨rfl, ⟨g1.lists, g1.est, g1.isDir⟩, by intro b0 h; cases h; exact ⟨rfl, rfl⟩⟩ hne (fun op ho bd' h => absurd h (hb op ho bd'))
  rw [show Dir.execAll env ops (Dir.exec env (.setCidBuilder bd) (start newDirectory thr)).2 = c from hc.symm] at i1
  obtain ⟨_, i1⟩ := i1
  rw [hh] at i1
  obtain ⟨lg', hlg, hp, b0, cs, hi, hs⟩ := i1
  subst hlg
  obtain ⟨rfl, hcan⟩ := hs _ rfl
  have hM : M' = mapAfter env (mapOf []) (.setCidBuilder bd :: ops) (start newDirectory thr) := i2.after
  rw [← hM] at hes
  obtain ⟨_, hsim⟩ := toNode_sim hp env'.ref (levels lg' + 1) h.shard _ cs hi.rep ⟨_, _, _, hi.holds.wf, by omega⟩ c.st
  simp only [Dir.exec, getNode, hh] at hn
  generalize h.shard.toNode env'.ref c.st = R at hn hsim
  obtain ⟨r, st'⟩ := R
  simp only at hsim hn
  rcases hsim with ⟨e, _⟩ | ⟨e, _⟩
  · rw [e] at hn; cases hn
  · rw [e] at hn
    cases hn
    refine published_of hp _ _ 0 _ cs es (by omega) hi.holds.wf hcan ⟨?_, fun k v => ?_⟩
    · have := hes.1; rw [List.map_map] at this; exact this
    · rw [← hi.holds.map, hes.2]
      constructor
      · intro h; exact List.mem_map.mpr ⟨_, h, rfl⟩
      · intro h
        obtain ⟨⟨k', v1, v2⟩, h, e⟩ := List.mem_map.mp h
        simp only [Link.mk.injEq] at e
        obtain ⟨rfl, rfl, rfl⟩ := e
        exact h

/-- C111: the hypotheses of `C111_directory` are met. -/
example : ∃ env, env.Valid 3 ∧ env.Real ∧ Dir.NoEmptyName exCross ∧ (∀ op ∈ exCross, ∀ b, op ≠ .setCidBuilder b) ∧
    (∃ h, (Dir.execAll env (.setCidBuilder (some exV1) :: exCross) (start newDirectory 50)).dir = .hamt h) ∧
    Lists (mapAfter env (mapOf []) (.setCidBuilder (some exV1) :: exCross) (start newDirectory 50))
      (([([0x10], 1, exNd 1), ([0x11], 1, exNd 2)] : List Entry).map (fun e => .mk e.1 e.2.1 e.2.2)) := by
  obtain ⟨env, ⟨E, B, C, he⟩, hr, _⟩ := exists_ex
  have hq : quiet exEnv (.setCidBuilder (some exV1) :: exCross) (start newDirectory 50) = true := by decide +kernel
  have h1 := execAll_congr (E := E) (B := B) (C := C) _ _ hq
  rw [← he] at h1
  refine ⟨env, IsEx.valid ⟨E, B, C, he⟩, hr, by simp [Dir.NoEmptyName, exCross, DOp.target], by simp [exCross], ?_, ?_⟩
  · rw [h1.1]; exact view_none (by decide +kernel)
  · have hm : mapAfter env (mapOf []) (.setCidBuilder (some exV1) :: exCross) (start newDirectory 50) = mapOf [.mk [0x10] 1 (exNd 1), .mk [0x11] 1 (exNd 2)] := by
      funext k
      rw [mapAfter, h1.2, show Dir.results exEnv (.setCidBuilder (some exV1) :: exCross) (start newDirectory 50) = [.done, .done, .done, .done, .done] by decide +kernel]
      simp only [exCross, List.zip_cons_cons, Dir.lastWrite, List.zip_nil_left]
      by_cases e1 : [0x11] = k
      · subst e1; decide
      · by_cases e2 : [0x10] = k
        · subst e2; decide
        · simp [e1, e2, mapOf, Link.name]
    rw [hm]
    exact lists_mapOf (by decide)
end

end Unixfs.Props
