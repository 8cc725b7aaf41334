import Verif.Props.SameCopy

/-!
# C124: what is found by name is listed, for any directory
-/

namespace Unixfs.Props
open Unixfs.Hamt hiding exec execAll results NoEmptyName lastWrite Cfg
open Unixfs.Dir Unixfs.File Unixfs.Spec

variable {net net' : Net} {t t' : Nat}

theorem get_slot {s s2 c s1 c' s1' : Shard} {i t1 t1' : Nat} (hz : s.size = s2.size) (hi : s.slots[i]? = s2.slots[i]?) (h : s.get net i t = (.ok (c, s1), t1))
    (h' : s2.get net' i t' = (.ok (c', s1'), t1')) : c = c' := by
  unfold Shard.get at h h'
  rw [← hi, ← hz] at h'
  cases hs : s.slots[i]? with
  | none => rw [hs] at h; cases h
  | some x =>
    rw [hs] at h h'
    cases x with
    | child y => cases h; cases h'; rfl
    | link l =>
      dsimp only at h h'
      cases hk : childLinkType s.size l with
      | error e => rw [hk] at h; cases h
      | ok k =>
        rw [hk] at h h'
        cases k with
        | shardLink =>
          dsimp only at h h'
          split at h
          · split at h'
            · cases hl : newHamtFromDag l.target with
              | error e => rw [hl] at h; cases h
              | ok y => rw [hl] at h h'; cases h; cases h'; rfl
            · cases h'
          · cases h
        | shardValueLink =>
          dsimp only at h h'
          cases hl : makeShardValue s.size l with
          | error e => rw [hl] at h; cases h
          | ok y => rw [hl] at h h'; cases h; cases h'; rfl

theorem setChild_slots (s c : Shard) (i : Nat) : (s.setChild c i).slots = s.slots.set i (.child c) ∧ (s.setChild c i).size = s.size := by
  cases s; exact ⟨rfl, rfl⟩

/-- Loading the child in one position leaves the others. -/
theorem get_keeps {s c s1 : Shard} {i j t1 : Nat} (h : s.get net i t = (.ok (c, s1), t1)) (hj : j ≠ i) : s1.slots[j]? = s.slots[j]? ∧ s1.size = s.size := by
  have key : s1 = s ∨ s1 = s.setChild c i := by
    unfold Shard.get at h
    repeat' split at h
    all_goals first | (cases h; done) | (cases h; first | exact .inl rfl | exact .inr rfl)
  rcases key with rfl | rfl
  · exact ⟨rfl, rfl⟩
  · rw [(setChild_slots s c i).1, (setChild_slots s c i).2]
    exact ⟨List.getElem?_set_ne (by omega), rfl⟩

theorem eachLoop_mono {step : Shard → EachSt → Option Err × Shard × EachSt} (hstep : ∀ c st, st.out ⊆ (step c st).2.2.out) :
    ∀ (is : List Nat) (s : Shard) (st : EachSt), st.out ⊆ (eachLoop net step is s st).2.2.out
  | [], s, st => List.Subset.refl _
  | i :: is, s, st => by
    unfold eachLoop
    rcases hg : s.get net i st.t with ⟨_ | ⟨c, sa⟩, ta⟩
    · exact List.Subset.refl _
    · dsimp only
      have h1 := hstep c { st with t := ta }
      rcases hs : step c { st with t := ta } with ⟨_ | e, c1, x1⟩
      · rw [hs] at h1
        exact List.Subset.trans h1 (eachLoop_mono hstep is _ _)
      · rw [hs] at h1
        exact h1

theorem forEachF_mono (cb : Nat → Bool) : ∀ (f : Nat) (s : Shard) (st : EachSt), st.out ⊆ (forEachF net cb f s st).2.2.out
  | 0, s, st => List.Subset.refl _
  | f + 1, s, st => by
    unfold forEachF
    refine eachLoop_mono ?_ _ _ _
    intro c st
    split
    · exact List.subset_append_left _ _
    · exact forEachF_mono cb f c st

/-- A loop that ends well has given every child to its function. -/
theorem eachLoop_visits {step : Shard → EachSt → Option Err × Shard × EachSt} (hstep : ∀ c st, st.out ⊆ (step c st).2.2.out) {i : Nat} {c : Shard} :
    ∀ (is : List Nat) (s s0 s1 s2 : Shard) (st st1 : EachSt) (t t1 : Nat), eachLoop net' step is s st = (none, s1, st1) → i ∈ is → s.slots[i]? = s0.slots[i]? → s.size = s0.size →
      s0.get net i t = (.ok (c, s2), t1) → ∃ sta c' stb, step c sta = (none, c', stb) ∧ stb.out ⊆ st1.out
  | [], s, s0, s1, s2, st, st1, t, t1, h, hi, hs, hz, hg => by cases hi
  | j :: is, s, s0, s1, s2, st, st1, t, t1, h, hi, hs, hz, hg => by
    unfold eachLoop at h
    rcases hgj : s.get net' j st.t with ⟨_ | ⟨cj, sa⟩, ta⟩
    · rw [hgj] at h; cases h
    rw [hgj] at h
    dsimp only at h
    rcases hsj : step cj { st with t := ta } with ⟨_ | e, c1, x1⟩
    · rw [hsj] at h
      dsimp only at h
      by_cases hij : i = j
      · subst hij
        cases get_slot hz hs hgj hg
        refine ⟨_, _, _, hsj, ?_⟩
        have := eachLoop_mono (net := net') hstep is (sa.setChild c1 i) x1
        rw [h] at this
        exact this
      · obtain ⟨h1, h2⟩ := get_keeps hgj hij
        refine eachLoop_visits hstep is _ s0 _ _ _ _ _ _ h ((List.mem_cons.mp hi).resolve_left hij) ?_ ?_ hg
        · rw [(setChild_slots sa c1 j).1, List.getElem?_set_ne (by omega), h1, hs]
        · rw [(setChild_slots sa c1 j).2, h2, hz]
    · rw [hsj] at h; cases h

theorem getValue_listed (H : Hash) : ∀ (f g : Nat) (s s1 s2 : Shard) (n : Nat) (key : Bytes) (t t1 : Nat) (l : Link) (st st1 : EachSt), s.getValue H net f n key t = (.ok (some l), s2, t1) →
    forEachF net' (fun _ => false) g s st = (none, s1, st1) → ∃ m ∈ st1.out, m.name = key ∧ m.target = l.target
  | 0, g, s, s1, s2, n, key, t, t1, l, st, st1, h, h' => by cases h
  | f + 1, 0, s, s1, s2, n, key, t, t1, l, st, st1, h, h' => by cases h'
  | f + 1, g + 1, s, s1, s2, n, key, t, t1, l, st, st1, h, h' => by
    unfold Shard.getValue at h
    unfold forEachF at h'
    cases hb : nextBits (H key) n s.lg with
    | error e => rw [hb] at h; cases h
    | ok x =>
      obtain ⟨idx, n'⟩ := x
      rw [hb] at h
      dsimp only at h
      split at h
      · cases h
      rcases hg : s.get net (s.sliceIndex idx) t with ⟨_ | ⟨c, sa⟩, ta⟩
      · rw [hg] at h; cases h
      rw [hg] at h
      dsimp only at h
      have hlt : s.sliceIndex idx < s.slots.length := by
        by_contra hn
        unfold Shard.get at hg
        rw [List.getElem?_eq_none (by omega)] at hg
        cases hg
      obtain ⟨sta, c', stb, hstep, hsub⟩ := eachLoop_visits (net := net) (by
        intro c st
        split
        · exact List.subset_append_left _ _
        · exact forEachF_mono _ g c st) _ _ s _ _ _ _ _ _ h' (List.mem_range.mpr hlt) rfl rfl hg
      split at h
      · next hv =>
        rw [if_pos hv] at hstep
        split at h
        · next hk =>
          cases hstep
          refine ⟨_, hsub (List.mem_append_right _ (List.mem_singleton.mpr rfl)), hk, ?_⟩
          have hval : c.val = some l := by injection h with h _; injection h
          rw [hval]
          rfl
        · cases h
      · next hv =>
        rw [if_neg hv] at hstep
        rcases hr : c.getValue H net f n' key ta with ⟨r, c2, t2⟩
        rw [hr] at h
        dsimp only at h
        have hrr : r = .ok (some l) := by injection h
        subst hrr
        obtain ⟨m, hm, h1, h2⟩ := getValue_listed H f g _ _ _ _ _ _ _ _ _ _ hr hstep
        exact ⟨m, hsub hm, h1, h2⟩

theorem basic_go (ls : List Link) (j : Nat) : Basic.forEachLink.go (fun _ => false) ls j = (ls, none) := by
  induction ls generalizing j with
  | nil => rfl
  | cons l ls ih => simp [Basic.forEachLink.go, ih]

/-- C124: when `Find` gives a node for a name, an enumeration of the same directory that ends without an error, at whatever time and with whatever blocks, has listed that node under that
name. The directory may be malformed and partly loaded. -/
theorem C124_found_is_listed {env env' : Env} {c c' : Dir.Cfg} {name : Bytes} {nd : Node} (hd : c.dir = c'.dir) (hf : (Dir.find env c name).1 = .ok nd)
    (he : (linksAndError env' c').2 = none) : ∃ l ∈ (linksAndError env' c').1, l.name = name ∧ l.target = nd := by
  simp only [linksAndError, forEachLink] at he ⊢
  rw [← hd] at he ⊢
  unfold Dir.find at hf
  cases hc : c.dir with
  | basic b =>
    rw [hc] at hf he
    simp only [Basic.forEachLink, basic_go, Basic.find] at hf he ⊢
    cases hl : b.getNodeLink name with
    | none => rw [hl] at hf; cases hf
    | some l =>
      rw [hl] at hf
      dsimp only at hf
      split at hf
      · cases hf
        have := List.find?_some hl
        exact ⟨l, List.mem_of_find?_eq_some hl, by simpa using this, rfl⟩
      · cases hf
  | hamt x =>
    rw [hc] at hf he
    dsimp only at hf he ⊢
    rw [Shard.forEachLink] at he ⊢
    rcases hx : forEachF env'.net (fun _ => false) x.shard.depth x.shard { out := [], t := c'.t } with ⟨e, s1, st1⟩
    rw [hx] at he
    dsimp only at he ⊢
    subst he
    unfold HamtDir.find at hf
    rcases hr : x.shard.find env.H env.net name c.t with ⟨r, s2, t2⟩
    rw [hr] at hf
    match r, hr, hf with
    | .error e, _, hf => cases hf
    | .ok none, _, hf => cases hf
    | .ok (some l), hr, hf =>
      dsimp only at hf
      split at hf
      · cases hf
        exact getValue_listed env.H _ _ _ _ _ _ _ _ _ _ _ _ hr hx
      · cases hf

/-- C124, the other way, for a directory that is not sharded: a name that is listed is found when the blocks of the directory can be fetched. The node is one that is listed under this name. -/
theorem C124_listed_is_found {env : Env} {c : Dir.Cfg} {b : Basic} {l : Link} (hc : c.dir = .basic b) (hl : l ∈ (linksAndError env c).1) (hn : ∀ u, ∀ m ∈ (linksAndError env c).1, env.net u m.target = true) :
    ∃ nd, (Dir.find env c l.name).1 = .ok nd ∧ ∃ m ∈ (linksAndError env c).1, m.name = l.name ∧ m.target = nd := by
  have hL : (linksAndError env c).1 = b.links ∧ (linksAndError env c).2 = none := by
    simp only [linksAndError, forEachLink, hc, Basic.forEachLink, basic_go, and_self]
  have hf : ∃ m, b.getNodeLink l.name = some m := by
    rw [hL.1] at hl
    cases h : b.getNodeLink l.name with
    | some m => exact ⟨m, rfl⟩
    | none =>
      have := List.find?_eq_none.mp h l hl
      simp at this
  obtain ⟨m, hm⟩ := hf
  have hmem : m ∈ (linksAndError env c).1 := by rw [hL.1]; exact List.mem_of_find?_eq_some hm
  have hfind : (Dir.find env c l.name).1 = .ok m.target := by
    unfold Dir.find
    rw [hc]
    simp only [Basic.find, hm, hn _ m hmem, if_true]
  exact ⟨_, hfind, C124_found_is_listed rfl hfind hL.2⟩

section Examples

/-- A shard of width 8 with entries "a" in its place, 3, and "b" in the wrong place, 5. -/
def exMisplaced : Node :=
  .proto (mustMarshal { typ := some THAMTShard, data := some [0x28], hashType := some 0x22, fanout := some 8 }) [.mk [0x33, 0x61] 1 (exNd 1), .mk [0x35, 0x62] 1 (exNd 2)] .v0

theorem exMisplaced_runs : (match newDirectoryFromNode exMisplaced with
    | .ok d => decide (((Dir.find (calmEnv H0) (start d 0) [0x61]).1.toOption, (linksAndError (calmEnv H0) (start d 0)).2, (linksAndError (calmEnv H0) (start d 0)).1.map (fun l => (l.name, l.target)),
        (match (Dir.find (calmEnv H0) (start d 0) [0x62]).1 with | .error .notExist => true | _ => false)) = (some (exNd 1), none, [([0x61], exNd 1), ([0x62], exNd 2)], true))
    | _ => false) = true := by decide +kernel

/-- C124: in a malformed sharded directory a name can be listed and yet not be found, although all blocks are there and no error but "does not exist" is reported. -/
theorem C124_misplaced : ∃ d, newDirectoryFromNode exMisplaced = .ok d ∧ (linksAndError (calmEnv H0) (start d 0)).2 = none ∧
    (∃ l ∈ (linksAndError (calmEnv H0) (start d 0)).1, l.name = [0x62]) ∧ (Dir.find (calmEnv H0) (start d 0) [0x62]).1 = .error .notExist := by
  have h := exMisplaced_runs
  split at h
  · next d hd =>
    have h := of_decide_eq_true h
    simp only [Prod.mk.injEq] at h
    refine ⟨d, hd, h.2.1, ?_, ?_⟩
    · have hm : ([0x62], exNd 2) ∈ (linksAndError (calmEnv H0) (start d 0)).1.map (fun l => (l.name, l.target)) := by rw [h.2.2.1]; simp
      obtain ⟨l, hl, he⟩ := List.mem_map.mp hm
      exact ⟨l, hl, (Prod.mk.inj he).1⟩
    · have h4 := h.2.2.2
      split at h4
      · next he => exact he
      · cases h4
  · cases h

/-- The hypotheses of `C124_found_is_listed` are met by this malformed directory, for the name "a". -/
example : ∃ d, newDirectoryFromNode exMisplaced = .ok d ∧ (Dir.find (calmEnv H0) (start d 0) [0x61]).1 = .ok (exNd 1) ∧ (linksAndError (calmEnv H0) (start d 0)).2 = none ∧
    ∃ l ∈ (linksAndError (calmEnv H0) (start d 0)).1, l.name = [0x61] ∧ l.target = exNd 1 := by
  have h := exMisplaced_runs
  split at h
  · next d hd =>
    have h := of_decide_eq_true h
    simp only [Prod.mk.injEq] at h
    have hf : (Dir.find (calmEnv H0) (start d 0) [0x61]).1 = .ok (exNd 1) := by
      have h1 := h.1
      generalize (Dir.find (calmEnv H0) (start d 0) [0x61]).1 = r at h1
      cases r with
      | error e => cases h1
      | ok x => cases h1; rfl
    exact ⟨d, hd, hf, h.2.1, C124_found_is_listed rfl hf h.2.1⟩
  · cases h

/-- Those of `C124_listed_is_found` by a directory in which a name occurs twice; one of the two nodes is found. -/
example : ∃ nd, (Dir.find (calmEnv H0) (start (.basic (.ofNode folderPBData [.mk [0x61] 1 (exNd 1), .mk [0x61] 1 (exNd 2)] .v0)) 0) [0x61]).1 = .ok nd :=
  have h := C124_listed_is_found (env := calmEnv H0) (c := start (.basic (.ofNode folderPBData [.mk [0x61] 1 (exNd 1), .mk [0x61] 1 (exNd 2)] .v0)) 0) (l := .mk [0x61] 1 (exNd 2)) rfl
    (.tail _ (.head _)) (fun _ _ _ => rfl)
  ⟨_, h.choose_spec.1⟩

end Examples

end Unixfs.Props
