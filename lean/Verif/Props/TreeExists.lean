import Verif.Props.Settled

/-!
# C118: every tree has exactly one node
-/

namespace Unixfs.Props
open Unixfs.Hamt hiding exec execAll results NoEmptyName lastWrite Cfg
open Unixfs.Dir Unixfs.File Unixfs.Spec
open Unixfs.Import hiding Cfg

variable {H : Hash} {S : Settings} {tr : Tree}

theorem sort_links (ls : List Link) (hu : (ls.map Link.name).Nodup) : ∃ ls' : List Link, ls'.Perm ls ∧ (ls'.map Link.name).Pairwise (· < ·) := by
  refine ⟨ls.mergeSort (fun a b => decide (a.name ≤ b.name)), List.mergeSort_perm _ _, ?_⟩
  have h1 : (ls.mergeSort (fun a b => decide (a.name ≤ b.name))).Pairwise (fun a b => decide (a.name ≤ b.name) = true) := by
    refine List.pairwise_mergeSort (fun a b c h h' => ?_) (fun a b => ?_) ls
    · simp only [decide_eq_true_eq] at h h' ⊢
      exact List.le_trans h h'
    · simp only [Bool.or_eq_true, decide_eq_true_eq]
      exact List.le_total _ _
  have h2 : ((ls.mergeSort (fun a b => decide (a.name ≤ b.name))).map Link.name).Nodup := ((List.mergeSort_perm ls _).map _).nodup_iff.mpr hu
  rw [List.pairwise_map]
  rw [List.Nodup, List.pairwise_map] at h2
  refine (h1.and h2).imp ?_
  rintro a b ⟨h, h'⟩
  simp only [decide_eq_true_eq] at h
  exact Classical.byContradiction fun hn => h' (List.le_antisymm h (List.not_lt.mp hn))

theorem hamt_exists {lg : Nat} {b : Builder} (hlo : 1 ≤ lg) : ∀ (n d : Nat) (es : List Spec.Entry), d + n + 1 = 64 / lg → (es.map Prod.fst).Nodup →
    (∀ e ∈ es, ∀ e' ∈ es, e.1 ≠ e'.1 → ∃ j, d ≤ j ∧ j < 64 / lg ∧ slotOf H lg j e.1 ≠ slotOf H lg j e'.1) → ∃ nd, HamtForm H lg b d es nd := by
  intro n
  induction n with
  | zero =>
    intro d es hd hu hc
    have hdl : (d + 1) * lg ≤ 64 := by
      have := Nat.div_mul_le_self 64 lg
      rw [← hd] at this
      simpa using this
    refine ⟨_, .mk (fun _ => default) hdl fun i hi hl => ?_⟩
    exfalso
    match hs : inSlot H lg d es i with
    | [] => simp [hs] at hl
    | [_] => simp [hs] at hl
    | e :: e' :: rest =>
      have he : e ∈ inSlot H lg d es i := by rw [hs]; simp
      have he' : e' ∈ inSlot H lg d es i := by rw [hs]; simp
      have hn : ((inSlot H lg d es i).map Prod.fst).Nodup := hu.sublist (List.filter_sublist.map _)
      rw [hs] at hn
      simp only [List.map_cons, List.nodup_cons, List.mem_cons, not_or] at hn
      obtain ⟨j, h1, h2, h3⟩ := hc e (List.mem_filter.mp he).1 e' (List.mem_filter.mp he').1 hn.1.1
      obtain rfl : j = d := by omega
      have s := (List.mem_filter.mp he).2
      have s' := (List.mem_filter.mp he').2
      simp only [decide_eq_true_eq] at s s'
      exact h3 (s.trans s'.symm)
  | succ n ih =>
    intro d es hd hu hc
    have hdl : (d + 1) * lg ≤ 64 := by
      have := Nat.div_mul_le_self 64 lg
      rw [← hd] at this
      exact Nat.le_trans (Nat.mul_le_mul_right _ (by omega)) this
    have hsub : ∀ i, ∃ x, HamtForm H lg b (d + 1) (inSlot H lg d es i) x := by
      intro i
      refine ih (d + 1) _ (by omega) (hu.sublist (List.filter_sublist.map _)) fun e he e' he' hne => ?_
      obtain ⟨j, h1, h2, h3⟩ := hc e (List.mem_filter.mp he).1 e' (List.mem_filter.mp he').1 hne
      refine ⟨j, ?_, h2, h3⟩
      have s := (List.mem_filter.mp he).2
      have s' := (List.mem_filter.mp he').2
      simp only [decide_eq_true_eq] at s s'
      rcases Nat.lt_or_ge d j with h | h
      · exact h
      · obtain rfl : j = d := by omega
        exact absurd (s.trans s'.symm) h3
    choose sub hsub using hsub
    exact ⟨_, .mk sub hdl fun i _ _ => hsub i⟩

theorem file_exists (hcut : ∀ c, (S.cut c).flatten = c ∧ AllFit (S.cut c)) (hm : 2 ≤ S.params.maxlinks) {c : Bytes} (hlen : c.length < 2 ^ 63) :
    ∃ nd, TreeWith H S (.file c) nd := by
  have hf : ∃ db, Fresh S.params (some [47]) (S.cut c) none none db := by
    unfold Spec.Fresh Params.new
    simp
  obtain ⟨db, hf⟩ := hf
  cases ht : S.trickle with
  | false =>
    obtain ⟨r, db', h⟩ := C13_balanced_terminates hf hm (hcut c).2 (Nat.le_refl _)
    exact ⟨_, (C116_imported hf (hcut c).1 hlen).1 r ht hm h⟩
  | true =>
    obtain ⟨r, db', h⟩ := C13_trickle_terminates hf (by omega) (hcut c).2 (Nat.lt_succ_self _)
    exact ⟨_, (C116_imported hf (hcut c).1 hlen).2 r ht (by omega) h⟩

/-- C118: every tree has exactly one node with the settings. The chunks of a content make it up, and none is larger than 1 MiB; there are at least two links per node; HAMTs
have 8 to 1024 slots, and are used only for names that can be told apart by the bits of their hashes; no content is longer than Go can count. -/
theorem C118_exists_unique (hH : ∀ k, (H k).length = 8) (hb : S.builder.codec = 0x70) (hcut : ∀ c, (S.cut c).flatten = c ∧ AllFit (S.cut c)) (hm : 2 ≤ S.params.maxlinks)
    (hw : ∀ es lg, S.width es = some lg → 3 ≤ lg ∧ lg ≤ 10 ∧ ∀ e ∈ es, ∀ e' ∈ es, e.1 ≠ e'.1 → ∃ d < 64 / lg, slotOf H lg d e.1 ≠ slotOf H lg d e'.1)
    (ht : tr.Proper) (hlen : ∀ names c, tr.at names = some (.file c) → c.length < 2 ^ 63) : ∃! nd, TreeWith H S tr nd := by
  have ex : ∃ nd, TreeWith H S tr nd := by
    induction ht with
    | file c => exact file_exists hcut hm (hlen [] c (by rw [Tree.at]))
    | symlink h => exact ⟨_, .symlink h⟩
    | @dir ts hnd hne hs ih =>
      have hlook : ∀ t ∈ ts, ts.lookup t.1 = some t.2 := by
        clear hne hs ih hlen
        induction ts with
        | nil => simp
        | cons t0 ts ih =>
          rw [List.map_cons, List.nodup_cons] at hnd
          intro t h
          rcases List.mem_cons.mp h with rfl | h
          · rw [List.lookup_cons, beq_self_eq_true]
          · have : t.1 ≠ t0.1 := fun e => hnd.1 (by rw [← e]; exact List.mem_map.mpr ⟨t, h, rfl⟩)
            rw [List.lookup_cons, beq_eq_false_iff_ne.mpr this]
            exact ih hnd.2 t h
      have hex : ∀ t : Bytes × Tree, ∃ nd, t ∈ ts → TreeWith H S t.2 nd := by
        intro t
        by_cases hm : t ∈ ts
        · obtain ⟨nd, h⟩ := ih t hm (fun names c h => hlen (t.1 :: names) c (by rw [Tree.at, hlook t hm]; exact h))
          exact ⟨nd, fun _ => h⟩
        · exact ⟨default, fun h => absurd h hm⟩
      choose f hf using hex
      have hkeys : (ts.map (fun t => ((t.1, (f t).size, f t) : Spec.Entry))).map Prod.fst = ts.map Prod.fst := by rw [List.map_map]; rfl
      generalize hes : ts.map (fun t => ((t.1, (f t).size, f t) : Spec.Entry)) = es at hkeys
      have hd : ∃ nd, DirWith H S es nd := by
        unfold DirWith
        cases hwid : S.width es with
        | none =>
          obtain ⟨ls, h1, h2⟩ := sort_links (es.map entryLink) (by rw [entryLink_names, hkeys]; exact hnd)
          exact ⟨_, ls, h1, h2, rfl⟩
        | some lg =>
          obtain ⟨h1, h2, h3⟩ := hw es lg hwid
          have h64 : 1 ≤ 64 / lg := Nat.div_pos (by omega) (by omega)
          obtain ⟨nd, h⟩ := hamt_exists (H := H) (b := S.builder) (lg := lg) (by omega) (64 / lg - 1) 0 es (by omega) (by rw [hkeys]; exact hnd)
            (fun e he e' he' hne => by obtain ⟨d, h4, h5⟩ := h3 e he e' he' hne; exact ⟨d, by omega, h4, h5⟩)
          exact ⟨nd, h1, h2, h⟩
      obtain ⟨nd, hd⟩ := hd
      refine ⟨nd, .dir hd (by rw [hkeys]; exact hnd) (by rw [hkeys]; exact hne) ?_ hkeys.symm ?_⟩
      · subst hes
        intro e he
        obtain ⟨t, _, rfl⟩ := List.mem_map.mp he
        rfl
      · subst hes
        intro i t e h1 h2
        rw [List.getElem?_map, h1] at h2
        cases h2
        exact hf t (List.mem_of_getElem? h1)
  obtain ⟨nd, h⟩ := ex
  exact ⟨nd, h, fun nd' h' => C116_same_node h' h (C115_one_tree hH (C116_form hb h) (C116_form hb h))⟩

/-- The balanced layout of chunks of one byte, two links per node; a directory with two or more entries that can be told apart is a HAMT with 8 slots. -/
def exHamts : Settings :=
  { params := exParams, trickle := false, cut := fun c => c.map (fun x => [x]), builder := .v0,
    width := fun es => if 2 ≤ es.length ∧ ∀ e ∈ es, ∀ e' ∈ es, e.1 ≠ e'.1 → ∃ d < 64 / 3, slotOf H0 3 d e.1 ≠ slotOf H0 3 d e'.1 then some 3 else none,
    width_perm := fun h => by simp only [h.length_eq, h.mem_iff] }

/-- C118: a directory with a file and a symbolic link; its names can be told apart, so that it is a HAMT. -/
example : ∃! nd, TreeWith H0 exHamts (.dir [([0x61], .file [1, 2, 3, 4, 5, 6]), ([0x73], .symlink [0x2e, 0x2e])]) nd := by
  refine C118_exists_unique H0_length rfl (fun c => ⟨?_, ?_⟩) (by decide) (fun es lg h => ?_) ?_ ?_
  · induction c with
    | nil => rfl
    | cons x c ih => exact congrArg (x :: ·) ih
  · intro d hd
    obtain ⟨x, _, rfl⟩ := List.mem_map.mp hd
    simp
  · unfold exHamts at h
    dsimp only at h
    split at h
    · rename_i hc
      cases h
      exact ⟨by omega, by omega, hc.2⟩
    · cases h
  · refine .dir (by simp) (by simp) fun e he => ?_
    simp only [List.mem_cons, List.not_mem_nil, or_false] at he
    rcases he with rfl | rfl
    · exact .file _
    · exact .symlink (by decide)
  · intro names c h
    match names with
    | [] => rw [Tree.at] at h; cases h
    | k :: rest =>
      rw [Tree.at] at h
      split at h
      · cases h
      · rename_i t ht
        simp only [List.lookup_cons, List.lookup_nil] at ht
        split at ht
        · cases ht
          cases rest with
          | nil => rw [Tree.at] at h; cases h; decide
          | cons _ _ => simp [Tree.at] at h
        · split at ht
          · cases ht
            cases rest with
            | nil => rw [Tree.at] at h; cases h
            | cons _ _ => simp [Tree.at] at h
          · cases ht

example : exHamts.width [([0x61], exTri.size, exTri), ([0x73], exSym.size, exSym)] = some 3 := by decide +kernel

end Unixfs.Props
