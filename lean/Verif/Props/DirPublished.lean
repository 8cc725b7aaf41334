import Verif.Spec.DirPublished
import Verif.Props.Published
import Verif.Props.Dir

/-!
# C113: a published directory, whoever made it, is loaded, is the map of its entries and stays published
-/

namespace Unixfs.Props
open Unixfs.Hamt hiding exec execAll results NoEmptyName lastWrite Cfg
open Unixfs.Dir Unixfs.Spec

variable {env : Env} {lg lg0 : Nat} {ops : List DOp} {thr : Int} {b : Builder} {es : List Entry} {nd : Node} {st : List Node}

theorem folder_literal : folderPBData = [0x08, 1] := by decide +kernel

theorem lists_ext {M M' : NMap} {ls ls' : List Link} (h : Lists M ls) (h' : Lists M' ls') (hp : ls.Perm ls') : M = M' := by
  funext k
  cases hM : M k with
  | some v => exact ((h'.2 k v).mpr (hp.mem_iff.mp ((h.2 k v).mp hM))).symm
  | none =>
    cases hM' : M' k with
    | none => rfl
    | some v =>
      have := (h.2 k v).mpr (hp.mem_iff.mpr ((h'.2 k v).mp hM'))
      rw [hM] at this; cases this

theorem lists_entries {M : NMap} {es : List Entry} (h : Lists M (es.map entryLink)) : (es.map Prod.fst).Nodup ∧ ∀ k v, M k = some v ↔ (k, v) ∈ es := by
  refine ⟨?_, fun k v => ?_⟩
  · have := h.1; rw [List.map_map] at this; exact this
  · rw [h.2]
    constructor
    · intro h
      obtain ⟨⟨k', v1, v2⟩, h, e⟩ := List.mem_map.mp h
      simp only [entryLink, Link.mk.injEq] at e
      obtain ⟨rfl, rfl, rfl⟩ := e
      exact h
    · intro h; exact List.mem_map.mpr ⟨_, h, rfl⟩

theorem entryLink_names (es : List Entry) : (es.map entryLink).map Link.name = es.map Prod.fst := by rw [List.map_map]; rfl

/-- A published directory is loaded, and holds its entries. -/
theorem published_loads (hH : ∀ k, (env.H k).length = 8) (hlo : 3 ≤ lg) (hhi : lg ≤ 10) (hb : b.codec = 0x70) (W : Nat → Prop)
    (h : DirForm env.H (· = lg) b es nd) (hW : ∀ {l}, HamtForm env.H l b 0 es nd → l = lg → W l) (hu : (es.map Prod.fst).Nodup) (hne : [] ∉ es.map Prod.fst)
    (hst : HamtForm env.H lg b 0 es nd → ∀ x, SubShard (digits (2 ^ lg)) nd x → x ∈ st) (bo : Option Builder) (hbo : ∀ b0, bo = some b0 → b0 = b) :
    ∃ d, newDirectoryFromNode nd = .ok d ∧ DInv env W bo d st (mapOf (es.map entryLink)) ∧
      ∀ (env' : Env) (thr : Int), (∀ n, env'.ref n = false) → (exec env' .getNode { start d thr with st := st }).1 = .node nd := by
  have hL := lists_mapOf (ls := es.map entryLink) (by rw [entryLink_names]; exact hu)
  have h0 : mapOf (es.map entryLink) [] = none := mapOf_empty (by rw [entryLink_names]; exact hne)
  cases h with
  | @plain ls hp =>
    have hul : (ls.map Link.name).Nodup := (hp.map Link.name).nodup_iff.mpr (by rw [entryLink_names]; exact hu)
    have hd : newDirectoryFromNode (.proto [0x08, 1] ls b) = .ok (.basic (.ofNode [0x08, 1] ls b)) := by
      rw [← folder_literal, newDirectoryFromNode, folder_isDir.choose_spec.1]
      dsimp only
      rw [if_pos folder_isDir.choose_spec.2]
    obtain ⟨g1, g2, g3, g4⟩ := loaded_inv hd hul
    refine ⟨_, hd, ⟨h0, ?_, ?_⟩, fun _ _ _ => by rw [ofNode_eq]; rfl⟩
    · rw [← lists_ext g1.lists hL (by rw [g2]; exact hp)]; exact g1
    · intro b0 h
      rw [hbo b0 h]
      exact ⟨g3, by rw [g4, folder_literal]⟩
  | @sharded l _ hl h =>
    subst hl
    have hp : HP env.H l := ⟨hH, hlo, hhi⟩
    obtain ⟨cs, hT⟩ := trie_of_published hp h (levels l) anyKey (by omega) hu
      (fun e he => ⟨trivial, fun h0 => hne (h0 ▸ List.mem_map.mpr ⟨e, he, rfl⟩)⟩)
    have hB : b.withCodec 0x70 = b := by simp [Builder.withCodec, ← hb]
    obtain ⟨s, hl, hr⟩ := repS_load (A := (· ∈ st)) hp.valid (wf_idx hT.wf) (b := b) (cs := cs) (fun x hx => by
      obtain ⟨h1, d', ls, h2⟩ := hT.subs x hx
      exact ⟨hst h x h1, d', ls, b, h2, hB⟩)
    have hload : newHamtFromDag nd = .ok s := by rw [hT.node]; exact hl
    have hi : Inv env.H l b cs ⟨s, 0, st⟩ (fun k => tfind (hix env.H l) (levels l) 0 cs k) := ⟨hr, hT.wf, fun _ => rfl⟩
    have hM : (fun k => tfind (hix env.H l) (levels l) 0 cs k) = mapOf (es.map entryLink) := by
      funext k
      have e1 := fun v => (lists_entries hL).2 k v
      have e2 := fun v => hT.lists.mem k v
      cases hf : tfind (hix env.H l) (levels l) 0 cs k with
      | some v => exact ((e1 v).mpr ((e2 v).mpr hf)).symm
      | none =>
        cases hm : mapOf (es.map entryLink) k with
        | none => rfl
        | some v => have := (e2 v).mp ((e1 v).mp hm); rw [hf] at this; cases this
    rw [hM] at hi
    refine ⟨_, fromNode_hamt hload, ⟨h0, l, hW h rfl, hp, b, cs, hi, ?_⟩, fun env' thr href => ?_⟩
    · intro b0 h
      rw [hbo b0 h]
      exact ⟨rfl, hT.canon⟩
    · obtain ⟨_, hsim⟩ := toNode_sim hp env'.ref (levels l + 1) s _ cs hi.rep ⟨_, _, _, hi.holds.wf, by omega⟩ st
      simp only [exec, getNode, start]
      generalize s.toNode env'.ref st = R at hsim
      obtain ⟨r, st'⟩ := R
      simp only at hsim
      rcases hsim with ⟨e, hk⟩ | ⟨e, _⟩
      · simp [href] at hk
      · rw [e, hT.node]

/-- The node of a directory is published. -/
theorem published_node {W : Nat → Prop} {c c' : Dir.Cfg} {M : NMap} {env' : Env} {n : Node} (hi : DInv env W (some b) c.dir c.st M) (hn : exec env' .getNode c = (.node n, c'))
    (hes : Lists M (es.map entryLink)) : DirForm env.H W b es n := by
  obtain ⟨_, i1⟩ := hi
  cases hd : c.dir with
  | basic d =>
    rw [hd] at i1
    obtain ⟨i1, i2⟩ := i1
    obtain ⟨e1, e2⟩ := i2 b rfl
    simp only [exec, getNode, hd, Basic.node] at hn
    cases hn
    rw [e1, e2, folder_literal]
    refine .plain ?_
    have n1 : d.links.Nodup := List.Nodup.of_map _ i1.lists.1
    have n2 : (es.map entryLink).Nodup := List.Nodup.of_map _ hes.1
    refine (List.perm_ext_iff_of_nodup n1 n2).mpr ?_
    rintro ⟨k, v1, v2⟩
    exact (i1.lists.2 k (v1, v2)).symm.trans (hes.2 k (v1, v2))
  | hamt h =>
    rw [hd] at i1
    obtain ⟨lg', hlg, hp, b0, cs, hi, hs⟩ := i1
    obtain ⟨rfl, hcan⟩ := hs _ rfl
    refine .sharded hlg ?_
    obtain ⟨_, hsim⟩ := toNode_sim hp env'.ref (levels lg' + 1) h.shard _ cs hi.rep ⟨_, _, _, hi.holds.wf, by omega⟩ c.st
    simp only [exec, getNode, hd] at hn
    generalize h.shard.toNode env'.ref c.st = R at hn hsim
    obtain ⟨r, st'⟩ := R
    simp only at hsim hn
    rcases hsim with ⟨e, _⟩ | ⟨e, _⟩
    · rw [e] at hn; cases hn
    · rw [e] at hn
      cases hn
      obtain ⟨l1, l2⟩ := lists_entries hes
      refine published_of hp _ _ 0 _ cs es (by omega) hi.holds.wf hcan ⟨l1, fun k v => ?_⟩
      rw [← l2, ← hi.holds.map]

/-- C113: a published directory, made by any implementation, is loaded by `NewDirectoryFromNode`. Every call in any history on it does what it must do
to the map of its entries. At the end, as long as the CID builder was not changed, `GetNode` gives a published directory of the entries that are there
then, with the same CID builder. -/
theorem C113_published (hv : env.Valid lg0) (hr : env.Real) (hlo : 3 ≤ lg) (hhi : lg ≤ 10) (hb : b.codec = 0x70) (h : DirForm env.H (· = lg) b es nd)
    (hu : (es.map Prod.fst).Nodup) (hne : [] ∉ es.map Prod.fst) (hst : HamtForm env.H lg b 0 es nd → ∀ x, SubShard (digits (2 ^ lg)) nd x → x ∈ st)
    (hn : NoEmptyName ops) :
    ∃ d, newDirectoryFromNode nd = .ok d ∧
      (∃ M, DRun env (fun x y => Collide env.H lg x y ∨ Collide env.H lg0 x y) { start d thr with st := st } (mapOf (es.map entryLink)) ops M) ∧
      ((∀ op ∈ ops, ∀ b, op ≠ .setCidBuilder b) → ∀ (env' : Env) (n : Node) (c' : Dir.Cfg) (es' : List Entry),
        exec env' .getNode (execAll env ops { start d thr with st := st }) = (.node n, c') →
        Lists (mapAfter env (mapOf (es.map entryLink)) ops { start d thr with st := st }) (es'.map entryLink) →
        DirForm env.H (fun l => l = lg ∨ l = lg0) b es' n) := by
  have hB : pbBuilder (some b) = b := by simp [pbBuilder, Builder.withCodec, ← hb]
  obtain ⟨d, h1, h2, _⟩ := published_loads (env := env) (W := fun l => l = lg ∨ l = lg0) hv.hash hlo hhi hb h (fun _ h => .inl h) hu hne hst none (by simp)
  obtain ⟨d', h1', h3, _⟩ := published_loads (env := env) (W := fun l => l = lg ∨ l = lg0) hv.hash hlo hhi hb h (fun _ h => .inl h) hu hne hst (some b) (by simp)
  rw [h1] at h1'
  cases h1'
  refine ⟨d, h1, ?_, ?_⟩
  · obtain ⟨M', _, hd⟩ := execAll_dspec (W := fun l => l = lg ∨ l = lg0) (bo := none) hr (.inr rfl) hv.hp hv.width (by simp) ops (c := { start d thr with st := st }) h2 hn (by simp)
    refine ⟨M', hd.mono ?_⟩
    rintro x y ⟨l, rfl | rfl, hl⟩
    · exact .inl hl
    · exact .inr hl
  · intro hs env' n c' es' hg hes
    obtain ⟨M', hi, hd⟩ := execAll_dspec (W := fun l => l = lg ∨ l = lg0) (bo := some b) hr (.inr rfl) hv.hp hv.width (by intro b0 h; cases h; exact hB) ops
      (c := { start d thr with st := st }) h3 hn (fun op ho bd h => absurd h (hs op ho bd))
    rw [← hd.after] at hes
    exact published_node hi hg hes

/-! ### A published HAMT with two levels of sub-shards, and a plain directory -/

/-- The store in which the HAMT of C111 was written. -/
def exPubStore : List Node := ((Hamt.execAll H0 goodNet goodAdd exOps ⟨exS 8, 0, []⟩).shard.toNode goodAdd (Hamt.execAll H0 goodNet goodAdd exOps ⟨exS 8, 0, []⟩).st).2

theorem exPub_stored : ∀ x, SubShard (digits (2 ^ 3)) exPub x → x ∈ exPubStore := by
  obtain ⟨c', h⟩ := exPub_written
  have h1 : (Hamt.execAll H0 goodNet goodAdd exOps ⟨exS 8, 0, []⟩).shard.toNode goodAdd (Hamt.execAll H0 goodNet goodAdd exOps ⟨exS 8, 0, []⟩).st = (.ok exPub, exPubStore) := by
    unfold exPubStore
    simp only [Hamt.exec] at h
    split at h
    · next hn => cases h; rw [hn]
    · cases h
  exact (C37_round_trip H0_length exS_new exOps_ne rfl h1).2

/-- The loaded directory. -/
def exPubDir : Dir := match newDirectoryFromNode exPub with | .ok d => d | .error _ => newDirectory

/-- Two entries are added, one is removed. -/
def exPubOps : List DOp := [.add [0x20] (exNd 6), .remove [0x10], .add [0x21] (exNd 7)]

theorem exPubOps_quiet : quiet exEnv exPubOps { start exPubDir 50 with st := exPubStore } = true := by decide +kernel
theorem exPubOps_results : results exEnv exPubOps { start exPubDir 50 with st := exPubStore } = [.done, .done, .done] := by decide +kernel
theorem exPubOps_node : ∃ n c', exec exEnv .getNode (execAll exEnv exPubOps { start exPubDir 50 with st := exPubStore }) = (.node n, c') := by
  have h : (match (exec exEnv .getNode (execAll exEnv exPubOps { start exPubDir 50 with st := exPubStore })).1 with | .node _ => true | _ => false) = true := by decide +kernel
  generalize exec exEnv .getNode (execAll exEnv exPubOps { start exPubDir 50 with st := exPubStore }) = o at h ⊢
  obtain ⟨r, c'⟩ := o
  cases r with
  | node n => exact ⟨n, c', rfl⟩
  | _ => cases h

/-- C113: the hypotheses are met. The HAMT of C111 is loaded, changed by three calls and written again. -/
example : ∃ env n c', env.Valid 3 ∧ env.Real ∧ newDirectoryFromNode exPub = .ok exPubDir ∧
    exec exEnv .getNode (execAll env exPubOps { start exPubDir 50 with st := exPubStore }) = (.node n, c') ∧
    DirForm env.H (fun l => l = 3 ∨ l = 3) .v0 [([0x21], 1, exNd 7), ([0x20], 1, exNd 6), ([0x11], 1, exNd 2)] n := by
  obtain ⟨env, ⟨E, B, C, he⟩, hr, _⟩ := exists_ex
  have hv : env.Valid 3 := IsEx.valid ⟨E, B, C, he⟩
  have hH : env.H = H0 := by rw [he]; rfl
  obtain ⟨d, h1, _, h3⟩ := C113_published (env := env) (lg := 3) (lg0 := 3) (b := .v0) (es := exEntries) (nd := exPub) (st := exPubStore) (ops := exPubOps) (thr := 50) hv hr
    (by omega) (by omega) rfl (.sharded rfl (by rw [hH]; exact exPub_published)) (by decide) (by decide) (fun _ => exPub_stored) (by simp [NoEmptyName, exPubOps, DOp.target])
  have hd : d = exPubDir := by rw [exPubDir, h1]
  subst hd
  have hq := execAll_congr (E := E) (B := B) (C := C) _ _ exPubOps_quiet
  rw [← he] at hq
  obtain ⟨n, c', hn⟩ := exPubOps_node
  refine ⟨env, n, c', hv, hr, h1, by rw [hq.1]; exact hn, h3 (by simp [exPubOps]) exEnv n c' _ (by rw [hq.1]; exact hn) ?_⟩
  have hm : mapAfter env (mapOf (exEntries.map entryLink)) exPubOps { start exPubDir 50 with st := exPubStore }
      = mapOf (([([0x21], 1, exNd 7), ([0x20], 1, exNd 6), ([0x11], 1, exNd 2)] : List Entry).map entryLink) := by
    funext k
    rw [mapAfter, hq.2, exPubOps_results]
    simp only [exPubOps, List.zip_cons_cons, lastWrite, List.zip_nil_left]
    by_cases e1 : [0x21] = k
    · subst e1; decide
    · by_cases e2 : [0x10] = k
      · subst e2; decide
      · by_cases e3 : [0x20] = k
        · subst e3; decide
        · by_cases e4 : [0x11] = k
          · subst e4; decide
          · simp [e1, e2, e3, e4, mapOf, Link.name, exEntries, entryLink]
  rw [hm]
  exact lists_mapOf (by decide)

/-- C113: a plain directory from another implementation, with its links in another order. -/
example : ∃ env d, env.Valid 3 ∧ env.Real ∧ newDirectoryFromNode (.proto [0x08, 1] [.mk [0x10] 1 (exNd 4), .mk [0x11] 1 (exNd 2)] .v0) = .ok d ∧
    ∃ M, DRun env (fun x y => Collide env.H 3 x y ∨ Collide env.H 3 x y) { start d 50 with st := [] } (mapOf (exEntries.map entryLink)) exPubOps M := by
  obtain ⟨env, he, hr, _⟩ := exists_ex
  obtain ⟨d, h1, h2, _⟩ := C113_published (env := env) (lg := 3) (lg0 := 3) (b := .v0) (es := exEntries) (st := []) (ops := exPubOps) (thr := 50) he.valid hr
    (by omega) (by omega) rfl (.plain (ls := [.mk [0x10] 1 (exNd 4), .mk [0x11] 1 (exNd 2)]) (List.Perm.swap _ _ _)) (by decide) (by decide)
    (fun h => by
      generalize hN : (Node.proto [0x08, 1] [.mk [0x10] 1 (exNd 4), .mk [0x11] 1 (exNd 2)] .v0) = N at h
      cases h with
      | mk sub hd hs =>
        cases hN)
    (by simp [NoEmptyName, exPubOps, DOp.target])
  exact ⟨env, d, he.valid, hr, h1, h2⟩

end Unixfs.Props
