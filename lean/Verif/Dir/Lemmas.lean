import Verif.Spec.Dir
import Verif.Hamt.PropLemmas

/-!
# `BasicDirectory` holds a map and its size

The definitions in this file belong to proofs; they model no code.
-/

namespace Unixfs.Dir
open Unixfs.Hamt

/-! ### Sizes -/

theorem total_nil : total [] = 0 := rfl
theorem total_cons (l : Link) (ls : List Link) : total (l :: ls) = l.name.length + l.target.cidLen + total ls := rfl
theorem total_append (a b : List Link) : total (a ++ b) = total a + total b := by simp [total]
theorem total_perm {a b : List Link} (h : a.Perm b) : total a = total b := (h.map _).sum_eq

theorem linkSize_nonneg (n : Bytes) (x : Node) : 0 ≤ linkSize n x := by unfold linkSize; omega

theorem partialSize_eq (ls : List Link) : HamtDir.partialSize ls = (total ls : Int) := by
  induction ls with
  | nil => rfl
  | cons l ls ih =>
    simp only [HamtDir.partialSize, List.map_cons, List.sum_cons, total_cons] at ih ⊢
    rw [ih, linkSize]
    push_cast
    ring

theorem foldl_est (ls : List Link) : ∀ d : Basic, ls.foldl (fun d l => d.addToEstimatedSize l.name l.target) d
    = { d with estimatedSize := d.estimatedSize + (total ls : Int) } := by
  induction ls with
  | nil => intro d; simp [total]
  | cons l ls ih =>
    intro d
    rw [List.foldl_cons, ih, total_cons, Basic.addToEstimatedSize, linkSize]
    simp only [Basic.mk.injEq, true_and]
    push_cast
    ring

theorem compute_eq (d : Basic) : d.computeEstimatedSize = { d with estimatedSize := (total d.links : Int) } := by
  rw [Basic.computeEstimatedSize, foldl_est]; simp

/-- The names of an entry and of its link agree. -/
def entry (name : Bytes) (v : LinkVal) : Link := .mk name v.1 v.2

/-- The size of the entry with this name, if there is one. -/
def oldSize (M : NMap) (name : Bytes) : Int := match M name with | some v => linkSize name v.2 | none => 0

theorem oldSize_nonneg (M : NMap) (name : Bytes) : 0 ≤ oldSize M name := by
  unfold oldSize; split
  · exact linkSize_nonneg _ _
  · exact le_refl _

/-! ### Lists of entries -/

theorem lists_nil : Lists (fun _ => none) [] := ⟨by simp, by simp⟩

theorem lists_mem {M : NMap} {ls : List Link} (h : Lists M ls) {l : Link} (hl : l ∈ ls) : M l.name = some (l.tsize, l.target) := by
  rw [h.2]; cases l; exact hl

theorem lists_unique {M : NMap} {a b : List Link} (ha : Lists M a) (hb : Lists M b) : a.Perm b := by
  refine (List.perm_ext_iff_of_nodup ha.1.of_map hb.1.of_map).mpr fun l => ?_
  cases l with
  | mk n s t => rw [← ha.2 n (s, t), ← hb.2 n (s, t)]

theorem lists_map {M M' : NMap} {ls : List Link} (h : Lists M ls) (h' : Lists M' ls) : M = M' := by
  funext k
  cases h1 : M k with
  | none =>
    cases h2 : M' k with
    | none => rfl
    | some v => rw [h'.2] at h2; rw [← h.2, h1] at h2; cases h2
  | some v => rw [h.2, ← h'.2] at h1; exact h1.symm

theorem lists_find {M : NMap} {ls : List Link} (h : Lists M ls) (name : Bytes) :
    ls.find? (fun l => l.name = name) = (M name).map (entry name) := by
  cases hm : M name with
  | none =>
    rw [Option.map_none, List.find?_eq_none]
    intro l hl hn
    have := lists_mem h hl
    simp only [decide_eq_true_eq] at hn
    rw [hn, hm] at this; cases this
  | some v =>
    have hmem := (h.2 name v).mp hm
    obtain ⟨l, hl⟩ : ∃ l, ls.find? (fun l => l.name = name) = some l := by
      rw [← Option.isSome_iff_exists, List.find?_isSome]
      exact ⟨_, hmem, by simp [Link.name]⟩
    rw [hl]
    have h1 := List.mem_of_find?_eq_some hl
    have h2 := List.find?_some hl
    simp only [decide_eq_true_eq] at h2
    have h3 := lists_mem h h1
    rw [h2, hm, Option.some.injEq] at h3
    cases l with
    | mk n s t => simp only [Link.name] at h2; subst h2; rw [h3]; rfl

theorem lists_filter {M : NMap} {ls : List Link} (h : Lists M ls) (name : Bytes) :
    Lists (M.upd name none) (ls.filter (fun l => l.name ≠ name)) := by
  refine ⟨h.1.sublist ((List.filter_sublist).map _), fun k v => ?_⟩
  rw [List.mem_filter, ← h.2 k v, NMap.upd]
  by_cases hk : k = name
  · simp [hk, Link.name]
  · simp [hk, Link.name]

theorem lists_snoc {M : NMap} {ls : List Link} (h : Lists M ls) {name : Bytes} (hn : M name = none) (v : LinkVal) :
    Lists (M.upd name (some v)) (ls ++ [entry name v]) := by
  have hfresh : name ∉ ls.map Link.name := by
    intro hm
    obtain ⟨l, hl, rfl⟩ := List.mem_map.mp hm
    rw [lists_mem h hl] at hn; cases hn
  refine ⟨?_, fun k w => ?_⟩
  · rw [List.map_append, List.nodup_append]
    refine ⟨h.1, by simp, ?_⟩
    intro a ha b hb
    simp only [List.map_cons, List.map_nil, List.mem_singleton] at hb
    rintro rfl
    exact hfresh (by rw [hb] at ha; exact ha)
  · rw [List.mem_append, ← h.2 k w, NMap.upd, List.mem_singleton]
    by_cases hk : k = name
    · subst hk
      rw [if_pos rfl, hn, entry]
      simp only [Option.some.injEq, reduceCtorEq, false_or, Link.mk.injEq, true_and]
      constructor
      · rintro rfl; exact ⟨rfl, rfl⟩
      · rintro ⟨h1, h2⟩; exact (Prod.ext h1 h2).symm
    · rw [if_neg hk, entry]
      simp [hk]

theorem upd_upd (M : NMap) (name : Bytes) (a b : Option LinkVal) : (M.upd name a).upd name b = M.upd name b := by
  funext k; simp only [NMap.upd]; split <;> rfl

theorem total_filter {M : NMap} {ls : List Link} (h : Lists M ls) (name : Bytes) :
    (total (ls.filter (fun l => l.name ≠ name)) : Int) = total ls - oldSize M name := by
  cases hm : M name with
  | none =>
    have hall : ls.filter (fun l => l.name ≠ name) = ls := by
      rw [List.filter_eq_self]
      intro l hl
      have := lists_mem h hl
      simp only [ne_eq, decide_not, Bool.not_eq_eq_eq_not, Bool.not_true, decide_eq_false_iff_not]
      rintro rfl
      rw [hm] at this; cases this
    rw [hall, oldSize, hm]; simp
  | some v =>
    have hp : ls.Perm (entry name v :: ls.filter (fun l => l.name ≠ name)) := by
      have h1 := lists_snoc (lists_filter h name) (name := name) (by simp [NMap.upd]) v
      have h2 : (M.upd name none).upd name (some v) = M := by
        funext k; simp only [NMap.upd]; split
        · rename_i hk; subst hk; exact hm.symm
        · rfl
      rw [h2] at h1
      exact (lists_unique h h1).trans (List.perm_append_singleton _ _)
    rw [total_perm hp, total_cons, oldSize, hm]
    simp only [entry, Link.name, Link.target, linkSize]
    push_cast
    ring

/-! ### The invariant of a basic directory -/

structure BInv (d : Basic) (M : NMap) : Prop where
  lists : Lists M d.links
  est : d.estimatedSize = total d.links
  isDir : ∃ fs, FSNode.fromBytes d.data = .ok fs ∧ fs.type = TDirectory

theorem bget {d : Basic} {M : NMap} (h : BInv d M) (name : Bytes) : d.getNodeLink name = (M name).map (entry name) := lists_find h.lists name

theorem bremove {d : Basic} {M : NMap} (h : BInv d M) (name : Bytes) :
    (M name = none ∧ d.removeChild name = (.error .notExist, d)) ∨
    ∃ v d', M name = some v ∧ d.removeChild name = (.ok (), d') ∧ BInv d' (M.upd name none) ∧ d'.data = d.data ∧ d'.builder = d.builder ∧
      d'.links = d.links.filter (fun l => l.name ≠ name) := by
  rw [Basic.removeChild, bget h]
  cases hm : M name with
  | none => left; exact ⟨rfl, rfl⟩
  | some v =>
    right
    rw [Option.map_some]
    dsimp only
    have hrem : d.removeFromEstimatedSize (entry name v).name (entry name v).target = { d with estimatedSize := d.estimatedSize - linkSize name v.2 } := by
      rw [Basic.removeFromEstimatedSize]
      dsimp only
      rw [if_neg]; · rfl
      have h1 := total_filter h.lists name
      rw [oldSize, hm] at h1
      dsimp only at h1
      dsimp only [entry, Link.name, Link.target]
      rw [h.est]
      omega
    rw [hrem]
    refine ⟨v, _, rfl, rfl, ⟨lists_filter h.lists name, ?_, h.isDir⟩, rfl, rfl, rfl⟩
    dsimp only
    rw [total_filter h.lists name, h.est, oldSize, hm]

theorem baddLink {d : Basic} {M : NMap} (h : BInv d M) (name : Bytes) (l : Link) :
    ∃ d', d.addLinkChild name l = (.ok (), d') ∧ BInv d' (M.upd name (some (l.tsize, l.target))) ∧ d'.data = d.data ∧ d'.builder = d.builder ∧
      d'.links = d.links.filter (fun l => l.name ≠ name) ++ [.mk name l.tsize l.target] ∧
      (total d'.links : Int) = total d.links - oldSize M name + linkSize name l.target := by
  have key : ∀ d1 : Basic, BInv d1 (M.upd name none) → d1.data = d.data → d1.builder = d.builder → d1.links = d.links.filter (fun l => l.name ≠ name) →
      ∃ d', Basic.addToEstimatedSize { d1 with links := d1.links ++ [.mk name l.tsize l.target] } name l.target = d' ∧
        BInv d' (M.upd name (some (l.tsize, l.target))) ∧ d'.data = d.data ∧ d'.builder = d.builder ∧
        d'.links = d.links.filter (fun l => l.name ≠ name) ++ [.mk name l.tsize l.target] ∧
        (total d'.links : Int) = total d.links - oldSize M name + linkSize name l.target := by
    intro d1 h1 h2 h3 h4
    have hl : Lists (M.upd name (some (l.tsize, l.target))) (d1.links ++ [.mk name l.tsize l.target]) := by
      have := lists_snoc h1.lists (name := name) (by simp [NMap.upd]) (l.tsize, l.target)
      rwa [upd_upd] at this
    have ht : total [Link.mk name l.tsize l.target] = name.length + l.target.cidLen := by simp [total, Link.name, Link.target]
    refine ⟨_, rfl, ⟨hl, ?_, h1.isDir⟩, h2, h3, by rw [← h4]; rfl, ?_⟩
    · simp only [Basic.addToEstimatedSize]
      rw [total_append, h1.est, ht, linkSize]; push_cast; ring
    · simp only [Basic.addToEstimatedSize]
      rw [total_append, ht, h4]
      push_cast
      rw [total_filter h.lists name, linkSize]
  rw [Basic.addLinkChild]
  rcases bremove h name with ⟨h1, h2⟩ | ⟨v, d', h1, h2, h3, h4, h5, h6⟩
  · rw [h2]
    dsimp only
    rw [if_neg (by simp)]
    have hM : M.upd name none = M := by funext k; simp only [NMap.upd]; split; · rename_i hk; rw [hk, h1]
                                        · rfl
    have hf : d.links.filter (fun l => l.name ≠ name) = d.links := by
      rw [List.filter_eq_self]
      intro x hx
      have := lists_mem h.lists hx
      simp only [ne_eq, decide_not, Bool.not_eq_eq_eq_not, Bool.not_true, decide_eq_false_iff_not]
      rintro rfl
      rw [h1] at this; cases this
    obtain ⟨d', e, r⟩ := key d (by rw [hM]; exact h) rfl rfl hf.symm
    exact ⟨d', by rw [e], r⟩
  · rw [h2]
    obtain ⟨d'', e, r⟩ := key d' h3 h4 h5 h6
    exact ⟨d'', by rw [← e], r⟩

theorem addLinks_spec : ∀ (ls : List Link) {d : Basic} {M M' : NMap}, BInv d M → Lists M' (d.links ++ ls) →
    ∃ d', HamtDir.addLinks ls d = .ok d' ∧ BInv d' M' ∧ d'.data = d.data ∧ d'.builder = d.builder ∧ d'.links = d.links ++ ls
  | [], d, M, M', h, hl => by
    rw [List.append_nil] at hl
    exact ⟨d, rfl, lists_map h.lists hl ▸ h, rfl, rfl, by simp⟩
  | l :: ls, d, M, M', h, hl => by
    obtain ⟨d', h1, h2, h3, h4, h5, _⟩ := baddLink h l.name l
    have hfresh : ∀ x ∈ d.links, x.name ≠ l.name := by
      intro x hx he
      have := hl.1
      rw [List.map_append, List.nodup_append] at this
      exact this.2.2 _ (List.mem_map_of_mem hx) _ (List.mem_map_of_mem (List.mem_cons_self)) he
    have hf : d.links.filter (fun x => x.name ≠ l.name) = d.links := by
      rw [List.filter_eq_self]
      intro x hx
      simpa using hfresh x hx
    have hl5 : d'.links = d.links ++ [l] := by rw [h5, hf]; cases l; rfl
    obtain ⟨d'', g1, g2, g3, g4, g5⟩ := addLinks_spec ls (d := d') (M := _) (M' := M') h2 (by rw [hl5]; simpa using hl)
    refine ⟨d'', ?_, g2, by rw [g3, h3], by rw [g4, h4], by rw [g5, hl5]; simp⟩
    rw [HamtDir.addLinks, h1]
    exact g1

theorem folder_isDir : ∃ fs, FSNode.fromBytes folderPBData = .ok fs ∧ fs.type = TDirectory := by
  have h : ((FSNode.fromBytes folderPBData).toOption.map FSNode.type) = some TDirectory := by decide +kernel
  cases hf : FSNode.fromBytes folderPBData with
  | error e => rw [hf] at h; cases h
  | ok fs => rw [hf] at h; simp only [Except.toOption, Option.map_some, Option.some.injEq] at h; exact ⟨fs, rfl, h⟩

theorem ofNode_eq (data : Bytes) (links : List Link) (builder : Builder) : Basic.ofNode data links builder = ⟨data, links, builder, total links⟩ := by
  rw [Basic.ofNode, compute_eq]

theorem empty_inv : BInv Basic.empty (fun _ => none) := by
  rw [Basic.empty, ofNode_eq]
  exact ⟨lists_nil, rfl, folder_isDir⟩

theorem BInv.setBuilder {d : Basic} {M : NMap} (h : BInv d M) (b : Option Builder) : BInv (d.setCidBuilder b) M := ⟨h.lists, h.est, h.isDir⟩

end Unixfs.Dir
