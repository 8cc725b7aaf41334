import Verif.Props.Export
import Verif.Props.Robust
import Verif.Props.Malformed

/-!
# C121: going through any DAG
-/

namespace Unixfs.Props
open Unixfs.Hamt hiding exec execAll results NoEmptyName lastWrite Cfg
open Unixfs.Dir Unixfs.File Unixfs.Spec

variable {net : Net} {t k : Nat} {nd : Node} {f : FileNode}

theorem link_depth {n : Node} {l : Link} (h : l ∈ n.links) : nodeDepth l.target < nodeDepth n := by
  cases n with
  | proto d ls b =>
    have go : ∀ (ls : List Link), l ∈ ls → nodeDepth l.target ≤ linksDepth ls := by
      intro ls
      induction ls with
      | nil => intro h; cases h
      | cons a ls ih =>
        intro h
        obtain ⟨n, s, x⟩ := a
        rw [linksDepth]
        rcases List.mem_cons.mp h with rfl | h
        · exact Nat.le_max_left _ _
        · exact Nat.le_trans (ih h) (Nat.le_max_right _ _)
    have := go ls h
    rw [nodeDepth]; omega
  | _ => cases h

theorem reach_depth {x y : Node} (h : Reach x y) : nodeDepth y ≤ nodeDepth x := by
  induction h with
  | refl => exact Nat.le_refl _
  | step hl _ ih => have := link_depth hl; omega

/-- Going through the links of a directory gives nodes below it. -/
theorem links_in {P : Node → Prop} (hP : Complete P) {env : Env} {c : Dir.Cfg} (hd : DIn P c.dir) : ∀ l ∈ (linksAndError env c).1, P l.target := by
  simp only [linksAndError, forEachLink]
  cases hc : c.dir with
  | basic b =>
    rw [hc] at hd
    dsimp only
    rw [Basic.forEachLink]
    have h0 : Basic.forEachLink.go (fun _ => false) b.links 0 = (b.links, none) := by
      rcases each_go (fun _ => false) b.links 0 with h | ⟨_, _, _, _, _, _, h⟩
      · exact h.1
      · cases h
    rw [h0]
    exact hd
  | hamt h =>
    rw [hc] at hd
    exact (shard_forEach_in hP env.net (fun _ => false) (t := c.t) (show In P h.shard from hd)).2

/-- An error of going through the links of a loaded directory is no panic. -/
theorem links_sane {d : Dir} (hd : newDirectoryFromNode nd = .ok d) {env : Env} {c : Dir.Cfg} (hc : c.dir = d) {e : Err} (he : (linksAndError env c).2 = some e) : e.Sane := by
  simp only [linksAndError, forEachLink, hc] at he
  cases d with
  | basic b =>
    dsimp only at he
    rw [Basic.forEachLink] at he
    have h0 : Basic.forEachLink.go (fun _ => false) b.links 0 = (b.links, none) := by
      rcases each_go (fun _ => false) b.links 0 with h | ⟨_, _, _, _, _, _, h⟩
      · exact h.1
      · cases h
    rw [h0] at he
    cases he
  | hamt h =>
    obtain ⟨s, hs, hh⟩ : ∃ s, newHamtFromDag nd = .ok s ∧ h = { shard := s, sizeChange := 0 } := by
      unfold newDirectoryFromNode at hd
      split at hd
      · split at hd
        · cases hd
        · split at hd
          · cases hd
          · split at hd
            · split at hd
              · cases hd
              · next s hs => cases hd; exact ⟨s, hs, rfl⟩
            · cases hd
      · cases hd
    subst hh
    exact (forEach_ok env.net (fun _ => false) s.depth s { out := [], t := c.t } (load_fresh hs).1.ok (Nat.le_refl _)).1 e he

theorem seen_opened (h : Seen net nd k f) : ∃ nd' t, newUnixfsFile net t nd' = .ok f ∧ nodeDepth nd' + k ≤ nodeDepth nd := by
  induction h with
  | root h => exact ⟨nd, _, h, Nat.le_refl _⟩
  | @entry k d size env c n g x _ hd hs hx ih =>
    obtain ⟨nd', t, h1, h2⟩ := ih
    have h3 := ((C52_dir d size).mp h1).1
    have hin := load_dir_in (P := fun x => nodeDepth x < nodeDepth nd') h3 (fun l hl => link_depth hl)
    rw [← hd] at hin
    have hl := links_in (env := env) (fun x y (hx : nodeDepth x < nodeDepth nd') hr => Nat.lt_of_le_of_lt (reach_depth hr) hx) hin
    obtain ⟨pre, post, h4, h5⟩ := C53_in_order hs
    obtain ⟨i, hi, hxi⟩ := List.mem_iff_getElem.mp hx
    have hlen := h5.length_eq
    have ho := (List.forall₂_iff_get.mp h5).2 i (by omega) hi
    simp only [List.get_eq_getElem] at ho
    rw [hxi] at ho
    obtain ⟨_, u, hu⟩ := ho
    have := hl (pre[i]'(by omega)) (by rw [h4]; exact List.mem_append_left _ (List.getElem_mem _))
    exact ⟨_, u, hu, by omega⟩

/-- C121: a program that goes through a DAG, whatever its blocks contain and whichever of them can be fetched, gets not deeper than the DAG is high. -/
theorem C121_depth (h : Seen net nd k f) : k < nodeDepth nd := by
  obtain ⟨nd', _, _, h⟩ := seen_opened h
  have : 0 < nodeDepth nd' := by cases nd' <;> simp only [nodeDepth] <;> omega
  omega

/-- C121: opening any node gives an error or a file, directory or symbolic link, never a panic. -/
theorem C121_open : NoPanic (newUnixfsFile net t nd) := C52_no_panic

/-- C121: no call on a file that it comes upon panics, and every call ends. -/
theorem C121_read {dr : DR} (h : Seen net nd k (.file dr)) (ops : List ROp) : ∀ r ∈ (dr.run net ops).1, r.err ≠ some .panic ∧ r.err ≠ some .outOfFuel := by
  obtain ⟨nd', t, h1, _⟩ := seen_opened h
  exact C87_no_panic ((C52_file dr).mp h1) ops

/-- C121: no call of `Next` on a directory that it comes upon reports a panic of the producer or panics itself, and every call returns. -/
theorem C121_iterate {d : Dir} {size : Int} (h : Seen net nd k (.dir d size)) {env : Env} {c : Dir.Cfg} (hd : c.dir = d) {n : Nat} {g : It}
    (hs : It.Steps net n (It.start (linksAndError env c).1 (linksAndError env c).2) g) :
    (∀ e, .no (some e) ∈ g.log → e ≠ .panic ∧ e ≠ .outOfFuel) ∧ ∃ N, (∀ m g', It.Owns net m g g' → m ≤ N) ∧ (g.cons ≠ .idle → ∃ g', It.Own net g g') := by
  obtain ⟨nd', t, h1, _⟩ := seen_opened h
  refine ⟨fun e he => ?_, _, C53_next_returns hs⟩
  rcases C53_error hs he with ⟨rfl, _⟩ | h2 | ⟨l, _, ⟨rfl, _⟩ | ⟨u, h3⟩⟩
  · exact ⟨by simp, by simp⟩
  · exact links_sane ((C52_dir d size).mp h1).1 hd h2
  · exact ⟨by simp, by simp⟩
  · obtain ⟨a, b⟩ := C52_no_panic (net := net) (t := u) (nd := l.target)
    exact ⟨fun h => a (by rw [h3, h]), fun h => b (by rw [h3, h])⟩

section Examples

/-- A file with two links, of which the second is to a block that is no UnixFS node. -/
def exHalf : Node := bad TFile 2 none [1, 1] [badLeaf 1 [1], .proto [255] [] .v0]
/-- A directory that holds it. -/
def exHalfDir : Node := .proto folderPBData [.mk [0x61] 1 exHalf] .v0

theorem exHalf_opens : ∃ dr, newUnixfsFile goodNet 1 exHalf = .ok (.file dr) ∧ (dr.run goodNet [.read 1, .read 1]).1.map (fun r => (r.bytes, r.err.isSome)) = [([1], false), ([], true)] := by
  have h : (match newUnixfsFile goodNet 1 exHalf with
    | .ok (.file dr) => decide ((dr.run goodNet [.read 1, .read 1]).1.map (fun r => (r.bytes, r.err.isSome)) = [([1], false), ([], true)])
    | _ => false) = true := by decide +kernel
  split at h
  · rename_i dr hdr; exact ⟨dr, hdr, of_decide_eq_true h⟩
  · cases h

theorem exHalfDir_opens : newDirectoryFromNode exHalfDir = .ok (.basic (.ofNode folderPBData [.mk [0x61] 1 exHalf] .v0)) := by
  rw [exHalfDir, newDirectoryFromNode, folder_isDir.choose_spec.1]
  dsimp only
  rw [if_pos folder_isDir.choose_spec.2]

/-- The directory is opened and gone through; the file in it is read until the bad block. -/
example : ∃ k dr d size n g, Seen goodNet exHalfDir k (.file dr) ∧ k < nodeDepth exHalfDir ∧ (∀ r ∈ (dr.run goodNet [.read 1, .read 1]).1, r.err ≠ some .panic ∧ r.err ≠ some .outOfFuel) ∧
    Seen goodNet exHalfDir 0 (.dir d size) ∧ It.Steps goodNet n (It.start [.mk [0x61] 1 exHalf] none) g ∧ g.log.length = 1 ∧ (∀ e, .no (some e) ∈ g.log → e ≠ .panic ∧ e ≠ .outOfFuel) := by
  obtain ⟨dr, hdr, _⟩ := exHalf_opens
  have s0 : Seen goodNet exHalfDir 0 (.dir (.basic (.ofNode folderPBData [.mk [0x61] 1 exHalf] .v0)) (i64 exHalfDir.size.toNat)) := .root (t := 0) ((C52_dir _ _).mpr ⟨exHalfDir_opens, rfl⟩)
  have hL : linksAndError (calmEnv H0) (start (.basic (.ofNode folderPBData [.mk [0x61] 1 exHalf] .v0)) 0) = ([.mk [0x61] 1 exHalf], none) := rfl
  have h0 := It.Steps.zero (net := goodNet) (It.start [.mk [0x61] 1 exHalf] none)
  have h1 := It.Steps.own h0 (.send rfl rfl (by decide))
  have h2 := It.Steps.client h1 (.call rfl rfl)
  have h3 := It.Steps.own h2 (.recv rfl rfl rfl)
  have h4 := It.Steps.own h3 (.finish rfl)
  simp only [It.finish, It.start, Link.target, Nat.zero_add] at h4
  have hdr' : newUnixfsFile goodNet 1 exHalf = .ok (.file dr) := hdr
  rw [hdr'] at h4
  have s1 : Seen goodNet exHalfDir 1 (.file dr) := .entry (x := ([0x61], .file dr)) (env := calmEnv H0) (c := start _ 0) s0 rfl (by rw [hL]; exact h4) (List.mem_singleton.mpr rfl)
  exact ⟨1, dr, _, _, _, _, s1, C121_depth s1, C121_read s1 _, s0, h4, rfl, (C121_iterate (env := calmEnv H0) (c := start _ 0) s0 rfl (by rw [hL]; exact h4)).1⟩

end Examples

end Unixfs.Props
