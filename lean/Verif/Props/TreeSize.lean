import Verif.Props.Settled
import Verif.Props.BlockSize

/-!
# C117: the sizes recorded in a tree are numbers of bytes of blocks

The definitions in this file belong to proofs; they model no code.
-/

namespace Unixfs.Props
open Unixfs.Hamt hiding exec execAll results NoEmptyName lastWrite Cfg
open Unixfs.Dir Unixfs.File Unixfs.Spec
open Unixfs.Import hiding Cfg

variable {H : Hash} {S : Settings} {tr : Tree} {nd : Node} {cid : Node → Bytes}

/-- Every link below the node records the `Size` of its target. Belongs to proofs. -/
def LinkSizes (n : Node) : Prop := ∀ x, Reach n x → ∀ l ∈ x.links, l.tsize = l.target.size

theorem linkSizes_intro {n : Node} (h : ∀ l ∈ n.links, l.tsize = l.target.size ∧ LinkSizes l.target) : LinkSizes n := by
  intro x hx l hl
  cases hx with
  | refl => exact (h l hl).1
  | step hl' hx => exact (h _ hl').2 x hx l hl

mutual
theorem linkSizes_bytes (hcid : ∀ x, (cid x).length = x.cidLen) : ∀ n : Node, LinkSizes n → n.size = UInt64.ofNat (treeBytes cid n)
  | .proto d ls b, h => by
    have h1 := linkSizes_sum hcid ls (fun l hl => ⟨h _ (.refl _) l hl, fun x hx => h x (.step (n := .proto d ls b) hl hx)⟩)
    unfold Node.size
    rw [← encBlock_length (cid := cid) (.proto d ls b) (fun l _ => hcid _)]
    simp only [treeBytes, Node.links, h1, UInt64.ofNat_add]
  | .raw d b, _ => by simp [Node.size, Node.blockLen, Node.links, treeBytes]
  | .other d, _ => by simp [Node.size, Node.blockLen, Node.links, treeBytes]
theorem linkSizes_sum (hcid : ∀ x, (cid x).length = x.cidLen) : ∀ ls : List Link, (∀ l ∈ ls, l.tsize = l.target.size ∧ LinkSizes l.target) →
    (ls.map Link.tsize).sum = UInt64.ofNat (treeBytesL cid ls)
  | [], _ => rfl
  | .mk nm sz n :: ls, h => by
    obtain ⟨h1, h2⟩ := h _ List.mem_cons_self
    simp only [Link.tsize, Link.target] at h1 h2
    simp only [List.map_cons, List.sum_cons, treeBytesL, Link.tsize, linkSizes_sum hcid ls (fun l hl => h l (List.mem_cons_of_mem _ hl)), h1, linkSizes_bytes hcid n h2, UInt64.ofNat_add]
end

theorem linkSizes_file {n : Node} (h : LinksTrue n) : LinkSizes n := by
  intro x hx l hl
  have := reach_linksTrue n h x hx
  cases x with
  | proto d ls b => exact (linksTrue_mem this l hl).2.1
  | raw d b => cases hl
  | other d => cases hl

theorem linkSizes_hamt {lg d : Nat} {b : Builder} {es : List Spec.Entry} (h : HamtForm H lg b d es nd) (he : ∀ e ∈ es, e.2.1 = e.2.2.size ∧ LinkSizes e.2.2) : LinkSizes nd := by
  induction h with
  | @mk d es sub hd hsub ih =>
    refine linkSizes_intro fun l hl => ?_
    rw [Node.links, List.mem_map] at hl
    obtain ⟨i, hi, rfl⟩ := hl
    rw [List.mem_filter, List.mem_range] at hi
    have hin : ∀ e ∈ inSlot H lg d es i, e ∈ es := fun e he => (List.mem_filter.mp he).1
    split
    · rename_i name size node hs
      exact he _ (hin _ (by rw [hs]; exact List.mem_singleton.mpr rfl))
    · rename_i hs
      refine ⟨rfl, ih i hi.1 ?_ (fun e h => he e (hin e h))⟩
      match hs' : inSlot H lg d es i with
      | [] => simp [hs'] at hi
      | [(a, b, c)] => exact absurd hs' (hs a b c)
      | _ :: _ :: _ => simp

theorem linkSizes_tree (h : TreeWith H S tr nd) (hb : S.builder.codec = 0x70) : LinkSizes nd := by
  induction h with
  | balanced hl hcut hfit hlen h => exact linkSizes_file (file_facts (H := H) (C116_form hb (.balanced hl hcut hfit hlen h))).2.1
  | empty hl hcut => exact linkSizes_file (file_facts (H := H) (C116_form hb (.empty hl hcut))).2.1
  | trickle hl hcut hfit hlen h => exact linkSizes_file (file_facts (H := H) (C116_form hb (.trickle hl hcut hfit hlen h))).2.1
  | symlink hl => exact linkSizes_intro (by simp [Node.links])
  | @dir es nd ts h hu hne hsize hnames hsub ih =>
    have he : ∀ e ∈ es, e.2.1 = e.2.2.size ∧ LinkSizes e.2.2 := by
      intro e he
      obtain ⟨t, _, h⟩ := (entry_tree (P := fun _ x => LinkSizes x) hu hnames ih).1 e he
      exact ⟨hsize e he, h⟩
    unfold DirWith at h
    split at h
    · obtain ⟨ls, h1, _, rfl⟩ := h
      refine linkSizes_intro fun l hl => ?_
      obtain ⟨e, h2, rfl⟩ := List.mem_map.mp (h1.mem_iff.mp hl)
      exact he e h2
    · exact linkSizes_hamt h.2.2 he

/-- C117: every link in a tree records the number of bytes of the blocks of what it leads to (modulo 2^64). -/
theorem C117_links (h : TreeWith H S tr nd) (hb : S.builder.codec = 0x70) (hcid : ∀ x, (cid x).length = x.cidLen) {x : Node} (hx : Reach nd x) {l : Link} (hl : l ∈ x.links) :
    l.tsize = UInt64.ofNat (treeBytes cid l.target) := by
  have h1 := linkSizes_tree h hb
  rw [h1 x hx l hl]
  refine linkSizes_bytes hcid _ fun y hy => h1 y ?_
  have trans : ∀ {a b c : Node}, Reach a b → Reach b c → Reach a c := by
    intro a b c h h'
    induction h with
    | refl => exact h'
    | step hl _ ih => exact .step hl (ih h')
  exact trans hx (.step hl hy)

/-- C117: the `Size` of the directory that `NewUnixfsFile` makes of a tree is the number of bytes of the blocks of the tree. -/
theorem C117_size {es : List (Bytes × Tree)} {net : Net} {t : Nat} (hH : ∀ k, (H k).length = 8) (h : TreeWith H S (.dir es) nd) (hb : S.builder.codec = 0x70)
    (hcid : ∀ x, (cid x).length = x.cidLen) (hlen : treeBytes cid nd < 2 ^ 63) (hw : WorksFrom net t) :
    ∃ f, newUnixfsFile net t nd = .ok f ∧ f.size = some (treeBytes cid nd : Int) := by
  obtain ⟨d, h1, _⟩ := C114_open (net := net) (t := t) hH (C116_form hb h) hw
  refine ⟨_, h1, ?_⟩
  have h2 := linkSizes_bytes hcid nd (linkSizes_tree h hb)
  have h3 : nd.size.toNat = treeBytes cid nd := by rw [h2, UInt64.toNat_ofNat']; omega
  rw [h3, FileNode.size, Reader.i64_id (by omega) (by omega)]

/-- A directory with a file of three chunks. -/
def exSized : Node := .proto [0x08, 1] [.mk [0x61] exTri.size exTri] .v0

theorem exSized_with : TreeWith H0 exSettings (.dir [([0x61], .file [1, 2, 3, 4, 5, 6])]) exSized := by
  refine .dir (es := [([0x61], exTri.size, exTri)]) ⟨[.mk [0x61] exTri.size exTri], List.Perm.refl _, by simp, rfl⟩ (by simp) (by simp) (by simp) (by simp) ?_
  intro i t e ht he
  match i, ht, he with
  | 0, ht, he => cases ht; cases he; exact exFile_with

/-- C117: the link to the file, and the size of the directory. -/
example : exTri.size = UInt64.ofNat (treeBytes (fun x => List.replicate x.cidLen 0) exTri) ∧
    ∃ f, newUnixfsFile exNetAll 0 exSized = .ok f ∧ f.size = some 266 := by
  have hcid : ∀ x : Node, ((fun x : Node => List.replicate x.cidLen (0 : UInt8)) x).length = x.cidLen := fun x => List.length_replicate
  have h2 : treeBytes (fun x => List.replicate x.cidLen 0) exSized = 266 := by decide +kernel
  refine ⟨C117_links exSized_with rfl hcid (.refl _) (l := .mk [0x61] exTri.size exTri) (by simp [exSized, Node.links]), ?_⟩
  obtain ⟨f, h3, h4⟩ := C117_size (net := exNetAll) (t := 0) H0_length exSized_with rfl hcid (by rw [h2]; decide) (fun _ _ _ => rfl)
  exact ⟨f, h3, by rw [h4, h2]; rfl⟩

end Unixfs.Props
