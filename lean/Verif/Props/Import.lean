import Verif.Import.VerifyLemmas
import Verif.Import.Diverge
import Verif.Spec.Import

/-! # C06–C15: the importers -/

namespace Unixfs.Props
open Unixfs.Import Unixfs.Spec

/-! ### Facts about fresh helpers -/

theorem Fresh.facts {p : Params} {path chunks fin budget db} (h : Fresh p path chunks fin budget db) :
    db.Inv ∧ db.pend = chunks ∧ db.maxlinks = p.maxlinks ∧ db.rawLeaves = p.rawLeaves ∧ db.cidBuilder = p.cidBuilder ∧
    db.srcEnd = fin ∧ db.added = [] ∧ db.offset = 0 ∧ db.addBudget = budget ∧ db.hasPath = p.noCopy := by
  obtain ⟨db0, h0, rfl⟩ := h
  unfold Params.new at h0
  simp only at h0
  by_cases hc : (p.noCopy && (if p.noCopy then path.getD [] else []).isEmpty) = true
  · rw [if_pos hc] at h0; exact absurd h0 (by simp)
  · rw [if_neg hc] at h0
    simp only [Except.ok.injEq] at h0
    subst h0
    refine ⟨by intro h; simp at h, by simp [DB.pend], rfl, rfl, rfl, rfl, rfl, rfl, rfl, ?_⟩
    cases hn : p.noCopy <;> simp_all

theorem Fresh.cfg {p : Params} {path chunks fin budget db} (h : Fresh p path chunks fin budget db) (t : UInt32) :
    db.cfg t = ⟨p.rawLeaves, p.cidBuilder, t⟩ := by
  obtain ⟨_, _, _, h1, h2, _⟩ := Fresh.facts h
  simp [DB.cfg, h1, h2]

theorem leafFor_leafNode (p : Params) (t : UInt32) (c : Bytes) (h : c.length ≤ blockSizeLimit) :
    LeafFor p t (Cfg.leafNode ⟨p.rawLeaves, p.cidBuilder, t⟩ c) c := by
  unfold LeafFor Cfg.leafNode
  by_cases hr : p.rawLeaves
  · simp only [hr, if_true, rawBuilder]
    cases p.cidBuilder <;> rfl
  · simp only [hr]
    refine ⟨_, _, ?_, bytes_leaf t (some c) (by simpa using lim_lt h), rfl⟩
    simp only [Cfg.pbBuilder, protoBuilder]
    cases p.cidBuilder <;> rfl

theorem forall2_leaf (p : Params) (t : UInt32) : ∀ (cs : List Bytes), (∀ c ∈ cs, c.length ≤ blockSizeLimit) →
    List.Forall₂ (LeafFor p t) (cs.map (Cfg.leafNode ⟨p.rawLeaves, p.cidBuilder, t⟩)) cs
  | [], _ => .nil
  | c :: cs, h => .cons (leafFor_leafNode p t c (h c (by simp))) (forall2_leaf p t cs (fun x hx => h x (by simp [hx])))

theorem internalFor_of {p : Params} {t : UInt32} {n : Node} (h : InternalKind (Cfg.pbBuilder ⟨p.rawLeaves, p.cidBuilder, t⟩) n) :
    InternalFor p n := by
  have : Cfg.pbBuilder ⟨p.rawLeaves, p.cidBuilder, t⟩ = protoBuilder p := by
    simp only [Cfg.pbBuilder, protoBuilder]; cases p.cidBuilder <;> rfl
  rw [this] at h; exact h

theorem fileRefs_of (mk : Bytes → Node) (hmk : ∀ c, (mk c).dataBytes = c) (db : DB) (off : Nat) (cs : List Bytes)
    (h : refs db.added = refsFrom mk (UInt64.ofNat off) cs) :
    fileRefs db = (chunkOffsets off cs).map (fun x => (UInt64.ofNat x.1, x.2)) := by
  have h1 : fileRefs db = (refs db.added).map (fun x => (x.1, x.2.dataBytes)) := by
    unfold fileRefs refs
    rw [List.map_filterMap]
    congr 1
    funext b
    cases b.pos <;> simp
  rw [h1, h]
  clear h h1
  induction cs generalizing off with
  | nil => rfl
  | cons c cs ih =>
    simp only [refsFrom, List.map_cons, chunkOffsets, hmk]
    rw [← UInt64.ofNat_add, ih]

mutual
theorem linksTrue_toNode (c : Cfg) : ∀ t : T, LinksTrue (t.toNode c)
  | .leaf d => by
    simp only [T.toNode, Cfg.leafNode]
    split
    · cases c.cidBuilder <;> simp [LinksTrue]
    · simp [LinksTrue, LinksTrueL]
  | .node ts => by simp only [T.toNode, LinksTrue]; exact linksTrue_toLinks c ts
theorem linksTrue_toLinks (c : Cfg) : ∀ ts : List T, LinksTrueL (T.toLinks c ts)
  | [] => trivial
  | t :: ts => ⟨rfl, rfl, linksTrue_toNode c t, linksTrue_toLinks c ts⟩
end

theorem full_toNode {m : Nat} (c : Cfg) : ∀ {d : Nat} {t : T}, Balanced.Full m d t → FullAt m d (t.toNode c)
  | 0, _, ⟨x, h⟩ => by
    subst h
    simp only [T.toNode, FullAt, Cfg.leafNode]
    split
    · cases c.cidBuilder <;> rfl
    · rfl
  | d + 1, _, ⟨ts, he, hl, hf⟩ => by
    subst he
    refine ⟨by simp [T.toNode, Node.links, T.toLinks_length, hl], ?_⟩
    simp only [T.toNode, Node.links, T.toLinks_eq_map, List.mem_map]
    rintro l ⟨t, ht, rfl⟩
    exact full_toNode c (hf t ht)

theorem left_toNode {m : Nat} (c : Cfg) : ∀ {d : Nat} {t : T}, Balanced.Left m d t → BalancedAt m d (t.toNode c)
  | 0, _, ⟨x, h⟩ => by
    subst h
    simp only [T.toNode, BalancedAt, Cfg.leafNode]
    split
    · cases c.cidBuilder <;> rfl
    · rfl
  | d + 1, _, ⟨pre, last, he, hl, hf, hll⟩ => by
    subst he
    refine ⟨T.toLinks c pre, makeLink [] (last.toNode c), ?_, by rw [T.toLinks_length]; exact hl, ?_, left_toNode c hll⟩
    · simp [T.toNode, Node.links, T.toLinks_append, T.toLinks]
    · simp only [T.toLinks_eq_map, List.mem_map]
      rintro l ⟨t, ht, rfl⟩
      exact full_toNode c (hf t ht)

/-- The node for an empty balanced file. -/
theorem emptyLeaf (p : Params) (db : DB) (hr : db.rawLeaves = p.rawLeaves) (hc : db.cidBuilder = p.cidBuilder) :
    ∃ n, db.newLeafNode none TFile = .ok n ∧ content n = some [] ∧ SizesTrue n ∧ n.links = [] ∧ leaves n = [n] ∧ internals n = [] ∧
      (if p.rawLeaves then n = .raw [] (rawBuilder p) else
        ∃ d, n = .proto d [] (protoBuilder p) ∧ Pb.Data.unmarshal d = .ok { typ := some TFile, filesize := some 0 }) := by
  unfold DB.newLeafNode
  simp only [Option.getD_none, List.length_nil]
  rw [if_neg (by simp)]
  by_cases h : p.rawLeaves
  · simp only [hr, h, if_true]
    refine ⟨_, rfl, ?_⟩
    simp only [DB.rawNode, hc, rawBuilder]
    cases p.cidBuilder <;> simp [content, SizesTrue, Node.links, leaves, internals, Builder.rawCodec]
  · simp only [hr, h]
    rw [FSN.commit_of_typ _ (by rfl)]
    have hb := bytes_leaf TFile none (by simp)
    have hbb : (((FSN.new db TFile).setFileData none).file) = (FSNode.new TFile).setData none := rfl
    have hpb : db.pbBuilder = protoBuilder p := by
      simp only [DB.pbBuilder, protoBuilder, hc]; cases p.cidBuilder <;> rfl
    refine ⟨_, rfl, ?_, ?_, rfl, ?_, ?_, ?_⟩
    · simp only [FSN.setFileData, FSN.new, content, hb]
      simp [IsFileMsg]
    · simp only [FSN.setFileData, FSN.new]
      refine ⟨_, hb, .inl rfl, by simp, by simp, ?_, trivial⟩
      simp [contentLen, content, hb, IsFileMsg]
    · simp [FSN.setFileData, FSN.new, leaves]
    · simp [FSN.setFileData, FSN.new, internals]
    · exact ⟨_, by simp only [FSN.setFileData, FSN.new]; rw [hpb], by rw [hb]; rfl⟩

/-! ### Concrete imports, to which the theorems are applied below -/

/-- A file of three chunks with two links per node, not raw, on a plain reader. -/
def exChunks : List Bytes := [[1, 2], [3], [4, 5, 6]]
def exParams : Params := { maxlinks := 2 }
def exDB : DB := { maxlinks := 2, src := exChunks }
theorem exFresh : Fresh exParams none exChunks none none exDB := ⟨exDB, rfl, rfl⟩
theorem exFit : AllFit exChunks := by intro c hc; simp [exChunks] at hc; rcases hc with rfl | rfl | rfl <;> simp

/-- The same with raw leaves that refer to a file. -/
def exParamsRef : Params := { maxlinks := 2, rawLeaves := true, noCopy := true }
def exDBRef : DB := { maxlinks := 2, rawLeaves := true, hasPath := true, src := exChunks }
theorem exFreshRef : Fresh exParamsRef (some [47, 97]) exChunks none none exDBRef := ⟨exDBRef, rfl, rfl⟩

/-- The same with a splitter that fails after the chunks. -/
theorem exFreshFail : Fresh exParams none exChunks (some .splitter) none { exDB with srcEnd := some .splitter } := ⟨_, rfl, rfl⟩

theorem ok_of {α : Type} {r : Except Err (α × DB)} (q : α → Nat) {n : Nat} (h : (match r with | .ok (a, _) => decide (q a = n) | .error _ => false) = true) :
    ∃ a d, r = .ok (a, d) ∧ q a = n := by
  cases r with
  | ok x => exact ⟨x.1, x.2, rfl, of_decide_eq_true h⟩
  | error e => cases h

theorem exBalanced : ∃ r d, Balanced.layout 3 exDB = .ok (r, d) ∧ r.node.links.length = 2 := ok_of (fun r : Built => r.node.links.length) (by decide +kernel)
theorem exBalancedRef : ∃ r d, Balanced.layout 3 exDBRef = .ok (r, d) ∧ r.node.links.length = 2 := ok_of (fun r : Built => r.node.links.length) (by decide +kernel)
theorem exTrickle : ∃ r d, Trickle.layout 4 exDB = .ok (r, d) ∧ r.links.length = 3 := ok_of (fun r : Node => r.links.length) (by decide +kernel)
theorem exTrickleRef : ∃ r d, Trickle.layout 4 exDBRef = .ok (r, d) ∧ r.links.length = 3 := ok_of (fun r : Node => r.links.length) (by decide +kernel)

section
variable {p : Params} {path : Option Bytes} {chunks : List Bytes} {fin : Option Err} {budget : Option Nat} {db db' : DB} {fuel : Nat}

/-- What `balanced.Layout` returned, in terms of trees. -/
theorem balanced_ok {root : Built} (hf : Fresh p path chunks fin budget db) (h2 : 2 ≤ p.maxlinks)
    (h : Balanced.layout fuel db = .ok (root, db')) : Balanced.Result db root db' := by
  obtain ⟨hi, hp, hm, _⟩ := Fresh.facts hf
  have := Balanced.layout_spec db hi (by omega) fuel
  rw [h] at this; exact this

theorem trickle_ok {root : Node} (hf : Fresh p path chunks fin budget db) (h1 : 1 ≤ p.maxlinks)
    (h : Trickle.layout fuel db = .ok (root, db')) :
    ∃ ts new, Adv db chunks new db' ∧ ¬db'.More ∧ root = (T.node ts).toNode ⟨p.rawLeaves, p.cidBuilder, TRaw⟩ ∧
        T.chunksL ts = chunks ∧ Trickle.RootOK p.maxlinks ts ∧
        new.map Built.node = (T.node ts).nodes ⟨p.rawLeaves, p.cidBuilder, TRaw⟩ ∧
        refs new = (if db.fstore then refsFrom (Cfg.leafNode ⟨p.rawLeaves, p.cidBuilder, TRaw⟩) db.offset chunks else []) := by
  obtain ⟨hi, hp, hm, _⟩ := Fresh.facts hf
  have := Trickle.layout_spec db hi (by omega) fuel
  rw [h] at this
  rw [hp, Fresh.cfg hf, hm] at this
  exact this

theorem cfgOK_file (a b) : Cfg.OK ⟨a, b, TFile⟩ := .inl rfl
theorem cfgOK_raw (a b) : Cfg.OK ⟨a, b, TRaw⟩ := .inr rfl

/-! ### C06, C07: content -/

/-- C06: a DAG returned by `balanced.Layout` contains exactly the chunks. -/
theorem C06_balanced_content {root : Built} (hf : Fresh p path chunks fin budget db) (h2 : 2 ≤ p.maxlinks)
    (h : Balanced.layout fuel db = .ok (root, db')) : content root.node = some chunks.flatten := by
  obtain ⟨hi, hp, hm, hr, hc, _⟩ := Fresh.facts hf
  obtain ⟨new, ha, hnm, hcase⟩ := balanced_ok hf h2 h
  rcases hcase with ⟨he, hn, _⟩ | ⟨t, d, hroot, hch, _⟩
  · obtain ⟨n, hn', hcont, _⟩ := emptyLeaf p db hr hc
    rw [hn] at hn'; cases hn'
    rw [hcont]; rw [hp] at he; simp [he]
  · rw [hroot, Fresh.cfg hf, content_toNode _ (cfgOK_file _ _) t (T.lim_of_chunks t (by rw [hch]; exact ha.lim)), hch, hp]

example : ∃ r d, Balanced.layout 3 exDB = .ok (r, d) ∧ content r.node = some [1, 2, 3, 4, 5, 6] := by
  obtain ⟨r, d, h, _⟩ := exBalanced
  exact ⟨r, d, h, C06_balanced_content exFresh (by decide) h⟩

/-- C07: a DAG returned by `trickle.Layout` contains exactly the chunks. -/
theorem C07_trickle_content {root : Node} (hf : Fresh p path chunks fin budget db) (h1 : 1 ≤ p.maxlinks)
    (h : Trickle.layout fuel db = .ok (root, db')) : content root = some chunks.flatten := by
  obtain ⟨ts, new, ha, hnm, hroot, hch, _⟩ := trickle_ok hf h1 h
  have hl : (T.node ts).Lim := T.lim_of_chunks _ (by simp only [T.chunks]; rw [hch]; exact ha.lim)
  rw [hroot, content_toNode _ (cfgOK_raw _ _) _ hl]
  simp [T.chunks, hch]

example : ∃ r d, Trickle.layout 4 exDB = .ok (r, d) ∧ content r = some [1, 2, 3, 4, 5, 6] := by
  obtain ⟨r, d, h, _⟩ := exTrickle
  exact ⟨r, d, h, C07_trickle_content exFresh (by decide) h⟩

/-! ### C08: sizes -/

/-- C08 for `balanced.Layout`. -/
theorem C08_balanced_sizes {root : Built} (hf : Fresh p path chunks fin budget db) (h2 : 2 ≤ p.maxlinks)
    (h : Balanced.layout fuel db = .ok (root, db')) : SizesTrue root.node := by
  obtain ⟨hi, hp, hm, hr, hc, _⟩ := Fresh.facts hf
  obtain ⟨new, ha, hnm, hcase⟩ := balanced_ok hf h2 h
  rcases hcase with ⟨he, hn, _⟩ | ⟨t, d, hroot, hch, _⟩
  · obtain ⟨n, hn', hcont, hs, _⟩ := emptyLeaf p db hr hc
    rw [hn] at hn'; cases hn'; exact hs
  · rw [hroot, Fresh.cfg hf]
    exact sizesTrue_toNode _ (cfgOK_file _ _) t (T.lim_of_chunks t (by rw [hch]; exact ha.lim))

example : ∃ r d, Balanced.layout 3 exDB = .ok (r, d) ∧ SizesTrue r.node := by
  obtain ⟨r, d, h, _⟩ := exBalanced
  exact ⟨r, d, h, C08_balanced_sizes exFresh (by decide) h⟩

/-- C08 for `trickle.Layout`. -/
theorem C08_trickle_sizes {root : Node} (hf : Fresh p path chunks fin budget db) (h1 : 1 ≤ p.maxlinks)
    (h : Trickle.layout fuel db = .ok (root, db')) : SizesTrue root := by
  obtain ⟨ts, new, ha, hnm, hroot, hch, _⟩ := trickle_ok hf h1 h
  have hl : (T.node ts).Lim := T.lim_of_chunks _ (by simp only [T.chunks]; rw [hch]; exact ha.lim)
  rw [hroot]
  exact sizesTrue_toNode _ (cfgOK_raw _ _) _ hl

example : ∃ r d, Trickle.layout 4 exDB = .ok (r, d) ∧ SizesTrue r := by
  obtain ⟨r, d, h, _⟩ := exTrickle
  exact ⟨r, d, h, C08_trickle_sizes exFresh (by decide) h⟩

/-! ### C09, C10: shapes -/

/-- C09: the balanced shape, at the smallest possible depth. -/
theorem C09_balanced_shape {root : Built} (hf : Fresh p path chunks fin budget db) (h2 : 2 ≤ p.maxlinks)
    (h : Balanced.layout fuel db = .ok (root, db')) :
    ∃ d, BalancedAt p.maxlinks d root.node ∧ ∀ d', chunks.length ≤ p.maxlinks ^ d' → d ≤ d' := by
  obtain ⟨hi, hp, hm, hr, hc, _⟩ := Fresh.facts hf
  obtain ⟨new, ha, hnm, hcase⟩ := balanced_ok hf h2 h
  rcases hcase with ⟨he, hn, _⟩ | ⟨t, d, hroot, hch, hleft, hcount, _⟩
  · obtain ⟨n, hn', _, _, hl, _⟩ := emptyLeaf p db hr hc
    rw [hn] at hn'; cases hn'
    exact ⟨0, hl, by simp⟩
  · refine ⟨d, ?_, ?_⟩
    · rw [hroot, ← hm]; exact left_toNode _ hleft
    · intro d' hd'
      by_contra hlt
      have := hcount (by omega)
      rw [hm, hp] at this
      have h3 : p.maxlinks ^ d' ≤ p.maxlinks ^ (d - 1) := Nat.pow_le_pow_right (by omega) (by omega)
      omega

example : ∃ r d, Balanced.layout 3 exDB = .ok (r, d) ∧ ∃ k ≤ 2, BalancedAt 2 k r.node := by
  obtain ⟨r, d, h, _⟩ := exBalanced
  exact ⟨r, d, h, (C09_balanced_shape exFresh (by decide) h).imp fun k hk => ⟨hk.2 2 (by decide), hk.1⟩⟩

/-- C10: every DAG returned by `trickle.Layout` passes `VerifyTrickleDagStructure` called with the
same `Maxlinks`, a layer repeat of 4, the same kind of leaves, and either no prefix or the prefix it
was built with (a valid CIDv0/v1 prefix). -/
theorem C10_trickle_shape {root : Node} (hf : Fresh p path chunks fin budget db) (h1 : 1 ≤ p.maxlinks)
    (h : Trickle.layout fuel db = .ok (root, db')) (pfx : Option Builder)
    (hpfx : pfx = none ∨ ∃ b, p.cidBuilder = some b ∧ pfx = some b ∧ b.version ≤ 1 ∧ (b.codec = 0x55 → b.version = 1)) :
    Trickle.verify root { direct := p.maxlinks, layerRepeat := 4, rawLeaves := p.rawLeaves, pfx := pfx } = .ok () := by
  obtain ⟨ts, new, ha, hnm, hroot, hch, hok, _⟩ := trickle_ok hf h1 h
  have hl : (T.node ts).Lim := T.lim_of_chunks _ (by simp only [T.chunks]; rw [hch]; exact ha.lim)
  rw [hroot]
  exact hok.verify ⟨rfl, rfl, rfl, fun _ => rfl, rfl, hpfx⟩ hl

example : ∃ r d, Trickle.layout 4 exDB = .ok (r, d) ∧ Trickle.verify r { direct := 2, layerRepeat := 4 } = .ok () := by
  obtain ⟨r, d, h, _⟩ := exTrickle
  exact ⟨r, d, h, C10_trickle_shape exFresh (by decide) h none (.inl rfl)⟩

/-! ### C11: completeness of the store -/

/-- C11 for `balanced.Layout`. -/
theorem C11_balanced_stored {root : Built} (hf : Fresh p path chunks fin budget db) (h2 : 2 ≤ p.maxlinks)
    (h : Balanced.layout fuel db = .ok (root, db')) : ∀ x, Reach root.node x → Stored db' x := by
  intro x hx
  obtain ⟨hi, hp, hm, hr, hc, _, hadd, _⟩ := Fresh.facts hf
  obtain ⟨new, ha, hnm, hcase⟩ := balanced_ok hf h2 h
  unfold Stored
  rw [ha.added, hadd, List.nil_append]
  rcases hcase with ⟨he, hn, hpos, hnew⟩ | ⟨t, d, hroot, hch, _, _, hnodes, _⟩
  · obtain ⟨n, hn', _, _, hl, _⟩ := emptyLeaf p db hr hc
    rw [hn] at hn'; cases hn'
    cases hx with
    | refl => exact ⟨root, by simp [hnew], rfl⟩
    | step hl' _ => rw [hl] at hl'; simp at hl'
  · rw [hroot] at hx
    have := reach_toNode _ t x hx
    rw [← hnodes] at this
    obtain ⟨b, hb, hbe⟩ := List.mem_map.mp this
    exact ⟨b, hb, hbe⟩

example : ∃ r d, Balanced.layout 3 exDB = .ok (r, d) ∧ ∀ x, Reach r.node x → Stored d x := by
  obtain ⟨r, d, h, _⟩ := exBalanced
  exact ⟨r, d, h, C11_balanced_stored exFresh (by decide) h⟩

/-- C11 for `trickle.Layout`. -/
theorem C11_trickle_stored {root : Node} (hf : Fresh p path chunks fin budget db) (h1 : 1 ≤ p.maxlinks)
    (h : Trickle.layout fuel db = .ok (root, db')) : ∀ x, Reach root x → Stored db' x := by
  intro x hx
  obtain ⟨hi, hp, hm, hr, hc, _, hadd, _⟩ := Fresh.facts hf
  obtain ⟨ts, new, ha, hnm, hroot, hch, hok, hnodes, _⟩ := trickle_ok hf h1 h
  unfold Stored
  rw [ha.added, hadd, List.nil_append]
  rw [hroot] at hx
  have := reach_toNode _ _ x hx
  rw [← hnodes] at this
  obtain ⟨b, hb, hbe⟩ := List.mem_map.mp this
  exact ⟨b, hb, hbe⟩

example : ∃ r d, Trickle.layout 4 exDB = .ok (r, d) ∧ ∀ x, Reach r x → Stored d x := by
  obtain ⟨r, d, h, _⟩ := exTrickle
  exact ⟨r, d, h, C11_trickle_stored exFresh (by decide) h⟩

/-! ### C12, C13: errors and termination -/

theorem fits_iff : AllFit chunks ↔ ∀ c ∈ chunks, c.length ≤ blockSizeLimit := Iff.rfl

/-- C12 for `balanced.Layout`: success means the splitter ended with EOF and no chunk was oversized. -/
theorem C12_balanced_no_truncation {root : Built} (hf : Fresh p path chunks fin budget db) (h2 : 2 ≤ p.maxlinks)
    (h : Balanced.layout fuel db = .ok (root, db')) : fin = none ∧ AllFit chunks := by
  obtain ⟨hi, hp, hm, hr, hc, hse, _⟩ := Fresh.facts hf
  obtain ⟨new, ha, hnm, _⟩ := balanced_ok hf h2 h
  unfold DB.More at hnm
  rw [not_not] at hnm
  refine ⟨by rw [← hse, ← ha.srcEnd]; exact hnm.2, ?_⟩
  rw [← hp]; exact ha.lim

example : ∃ r d, Balanced.layout 3 exDB = .ok (r, d) ∧ AllFit exChunks := by
  obtain ⟨r, d, h, _⟩ := exBalanced
  exact ⟨r, d, h, (C12_balanced_no_truncation exFresh (by decide) h).2⟩

/-- C12 for `trickle.Layout`. -/
theorem C12_trickle_no_truncation {root : Node} (hf : Fresh p path chunks fin budget db) (h1 : 1 ≤ p.maxlinks)
    (h : Trickle.layout fuel db = .ok (root, db')) : fin = none ∧ AllFit chunks := by
  obtain ⟨hi, hp, hm, hr, hc, hse, _⟩ := Fresh.facts hf
  obtain ⟨ts, new, ha, hnm, _⟩ := trickle_ok hf h1 h
  unfold DB.More at hnm
  rw [not_not] at hnm
  exact ⟨by rw [← hse, ← ha.srcEnd]; exact hnm.2, ha.lim⟩

example : ∃ r d, Trickle.layout 4 exDB = .ok (r, d) ∧ AllFit exChunks := by
  obtain ⟨r, d, h, _⟩ := exTrickle
  exact ⟨r, d, h, (C12_trickle_no_truncation exFresh (by decide) h).2⟩

/-- C12: the only errors `balanced.Layout` reports are an oversized chunk, the splitter's error and a
refusal of the DAG service — each only when it applies. -/
theorem C12_balanced_errors {e : Err} (hf : Fresh p path chunks fin budget db) (h2 : 2 ≤ p.maxlinks)
    (hfuel : chunks.length ≤ fuel) (h : Balanced.layout fuel db = .error e) :
    (e = .sizeLimitExceeded ∧ ¬AllFit chunks) ∨ fin = some e ∨ (e = .addFailed ∧ budget ≠ none) := by
  obtain ⟨hi, hp, hm, hr, hc, hse, _, _, hb, _⟩ := Fresh.facts hf
  have := Balanced.layout_spec db hi (by omega) fuel
  rw [h, hp] at this
  rcases this with h | ⟨_, h⟩
  · rcases h with ⟨he, c, hc, hl⟩ | h | ⟨he, h⟩
    · exact .inl ⟨he, fun hall => by rw [hp] at hc; have := hall c hc; unfold blockSizeLimit at hl; omega⟩
    · exact .inr (.inl (by rw [← hse]; exact h))
    · exact .inr (.inr ⟨he, by rw [← hb]; exact h⟩)
  · omega

/-- A failing splitter: the error is reported. -/
example : ∃ e, Balanced.layout 4 { exDB with srcEnd := some .splitter } = .error e ∧ e = .splitter := by
  cases h : Balanced.layout 4 { exDB with srcEnd := some .splitter } with
  | ok q => exact absurd (C12_balanced_no_truncation exFreshFail (by decide) (root := q.1) (db' := q.2) h).1 (by simp)
  | error e =>
    rcases C12_balanced_errors exFreshFail (by decide) (by decide) h with ⟨_, h⟩ | h | ⟨_, h⟩
    · exact absurd exFit h
    · exact ⟨e, rfl, by cases h; rfl⟩
    · exact absurd rfl h

/-- C12: as above for `trickle.Layout`. -/
theorem C12_trickle_errors {e : Err} (hf : Fresh p path chunks fin budget db) (h1 : 1 ≤ p.maxlinks)
    (hfuel : chunks.length < fuel) (h : Trickle.layout fuel db = .error e) :
    (e = .sizeLimitExceeded ∧ ¬AllFit chunks) ∨ fin = some e ∨ (e = .addFailed ∧ budget ≠ none) := by
  obtain ⟨hi, hp, hm, hr, hc, hse, _, _, hb, _⟩ := Fresh.facts hf
  have := Trickle.layout_spec db hi (by omega) fuel
  rw [h, hp] at this
  rcases this with h | ⟨_, h⟩
  · rcases h with ⟨he, c, hc, hl⟩ | h | ⟨he, h⟩
    · exact .inl ⟨he, fun hall => by rw [hp] at hc; have := hall c hc; unfold blockSizeLimit at hl; omega⟩
    · exact .inr (.inl (by rw [← hse]; exact h))
    · exact .inr (.inr ⟨he, by rw [← hb]; exact h⟩)
  · omega

example : ∃ e, Trickle.layout 4 { exDB with srcEnd := some .splitter } = .error e ∧ e = .splitter := by
  cases h : Trickle.layout 4 { exDB with srcEnd := some .splitter } with
  | ok q => exact absurd (C12_trickle_no_truncation exFreshFail (by decide) (root := q.1) (db' := q.2) h).1 (by simp)
  | error e =>
    rcases C12_trickle_errors exFreshFail (by decide) (by decide) h with ⟨_, h⟩ | h | ⟨_, h⟩
    · exact absurd exFit h
    · exact ⟨e, rfl, by cases h; rfl⟩
    · exact absurd rfl h

/-- C13: `balanced.Layout` with `Maxlinks ≥ 2` finishes within one loop iteration per chunk, and
succeeds when nothing fails. -/
theorem C13_balanced_terminates (hf : Fresh p path chunks none none db) (h2 : 2 ≤ p.maxlinks) (hfit : AllFit chunks)
    (hfuel : chunks.length ≤ fuel) : ∃ root db', Balanced.layout fuel db = .ok (root, db') := by
  cases h : Balanced.layout fuel db with
  | ok q => exact ⟨q.1, q.2, rfl⟩
  | error e =>
    rcases C12_balanced_errors hf h2 hfuel h with ⟨_, h⟩ | h | ⟨_, h⟩
    · exact absurd hfit h
    · exact absurd h (by simp)
    · exact absurd rfl h

example : ∃ r d, Balanced.layout 3 exDB = .ok (r, d) := C13_balanced_terminates exFresh (by decide) exFit (by decide)

/-- C13 for `trickle.Layout` with `Maxlinks ≥ 1`. -/
theorem C13_trickle_terminates (hf : Fresh p path chunks none none db) (h1 : 1 ≤ p.maxlinks) (hfit : AllFit chunks)
    (hfuel : chunks.length < fuel) : ∃ root db', Trickle.layout fuel db = .ok (root, db') := by
  cases h : Trickle.layout fuel db with
  | ok q => exact ⟨q.1, q.2, rfl⟩
  | error e =>
    rcases C12_trickle_errors hf h1 hfuel h with ⟨_, h⟩ | h | ⟨_, h⟩
    · exact absurd hfit h
    · exact absurd h (by simp)
    · exact absurd rfl h

example : ∃ r d, Trickle.layout 4 exDB = .ok (r, d) := C13_trickle_terminates exFresh (by decide) exFit (by decide)

/-- C13: with `Maxlinks ≤ 1` and more than one chunk, `balanced.Layout` never returns: however many
iterations of its loop are allowed, it has not finished. -/
theorem C13_balanced_diverges (hf : Fresh p path chunks none none db) (hm : p.maxlinks ≤ 1) (hfit : AllFit chunks)
    (hn : 2 ≤ chunks.length) : Balanced.layout fuel db = .error .outOfFuel := by
  obtain ⟨hi, hp, hml, hr, hc, hse, hadd, hoff, hb, _⟩ := Fresh.facts hf
  have hmore : db.More := by
    intro h; have := h.1; rw [hp] at this; subst this; simp at hn
  unfold Balanced.layout
  have hd := done_iff db hi
  have ha := done_adv db hi
  have hdm := done_more db hi
  cases hdn : db.done with
  | mk b db1 =>
    rw [hdn] at hd ha hdm
    cases b with
    | true => exact absurd hmore (hd.mp rfl)
    | false =>
      simp only
      have hleaf := newLeafDataNode_spec db1 TFile ha.inv (hdm.mpr hmore)
      have hp1 : db1.pend = chunks := by have := ha.pend; simp only [List.nil_append] at this; rw [← this, hp]
      cases hres : db1.newLeafDataNode TFile with
      | error e =>
        rw [hres] at hleaf
        rcases hleaf with ⟨he, c, hc, hl⟩ | h | ⟨he, h⟩
        · rw [hp1] at hc; have := hfit c hc; unfold blockSizeLimit at hl; omega
        · rw [ha.srcEnd, hse] at h; simp at h
        · exact absurd (ha.budget hb) h
      | ok q =>
        obtain ⟨⟨root, fs⟩, db2⟩ := q
        rw [hres] at hleaf
        obtain ⟨t, cs, new, hadv, hroot, hfs, hch, hcs, ⟨c, ht⟩, hnodes, hrefs⟩ := hleaf
        have hmore2 : db2.More := by
          intro h
          have h1 := hadv.pend
          rw [h.1, hp1, List.append_nil, ← hch, ht] at h1
          rw [h1] at hn; simp [T.chunks] at hn
        have ha2 := ha.trans hadv
        simp only
        rw [Balanced.layoutLoop_diverges fuel 0 root fs db2 (by rw [ha2.maxlinks, hml]; exact hm) hadv.inv hmore2 (ha2.budget hb)]

example : Balanced.layout 1000 { maxlinks := 1, src := exChunks } = .error .outOfFuel :=
  C13_balanced_diverges (p := { maxlinks := 1 }) (path := none) ⟨_, rfl, rfl⟩ (by decide) exFit (by decide)

/-- C13: with `Maxlinks = 0` and any data, `trickle.Layout` never returns. -/
theorem C13_trickle_diverges (hf : Fresh p path chunks none none db) (hm : p.maxlinks = 0)
    (hn : chunks ≠ []) : Trickle.layout fuel db = .error .outOfFuel := by
  obtain ⟨hi, hp, hml, hr, hc, hse, hadd, hoff, hb, _⟩ := Fresh.facts hf
  exact Trickle.layout_diverges fuel db (by rw [hml, hm]) hi (by intro h; rw [hp] at h; exact hn h.1) hb

example : Trickle.layout 1000 { maxlinks := 0, src := exChunks } = .error .outOfFuel :=
  C13_trickle_diverges (p := { maxlinks := 0 }) (path := none) (chunks := exChunks) ⟨_, rfl, rfl⟩ rfl (by decide)

/-! ### C14: filestore offsets -/

theorem leafNode_dataBytes (p : Params) (t : UInt32) (hr : p.rawLeaves = true) (c : Bytes) :
    (Cfg.leafNode ⟨p.rawLeaves, p.cidBuilder, t⟩ c).dataBytes = c := by
  unfold Cfg.leafNode
  simp only [hr, if_true]
  cases p.cidBuilder <;> rfl

/-- The range of the input at a chunk's offset holds the chunk. -/
theorem chunkOffsets_range (pre : Bytes) : ∀ (cs : List Bytes) (o : Nat) (c : Bytes), (o, c) ∈ chunkOffsets pre.length cs →
    ((pre ++ cs.flatten).drop o).take c.length = c := by
  intro cs
  induction cs generalizing pre with
  | nil => intro o c h; simp [chunkOffsets] at h
  | cons x cs ih =>
    intro o c h
    simp only [chunkOffsets, List.mem_cons, Prod.mk.injEq] at h
    rcases h with ⟨rfl, rfl⟩ | h
    · simp
    · have := ih (pre ++ x) o c (by rw [List.length_append]; exact h)
      simpa using this

/-- C14 for `balanced.Layout`: with a filestore path and raw leaves, the stored references are
exactly the chunks at their offsets, in order; the input range they name holds their bytes. -/
theorem C14_balanced_offsets {root : Built} (hf : Fresh p path chunks fin budget db) (h2 : 2 ≤ p.maxlinks)
    (hnc : p.noCopy = true) (hraw : p.rawLeaves = true) (hne : chunks ≠ []) (h : Balanced.layout fuel db = .ok (root, db')) :
    fileRefs db' = (chunkOffsets 0 chunks).map (fun x => (UInt64.ofNat x.1, x.2)) ∧
    ∀ o c, (o, c) ∈ chunkOffsets 0 chunks → (chunks.flatten.drop o).take c.length = c := by
  refine ⟨?_, fun o c hoc => by simpa using chunkOffsets_range [] chunks o c (by simpa using hoc)⟩
  obtain ⟨hi, hp, hm, hr, hc, hse, hadd, hoff, hb, hpath⟩ := Fresh.facts hf
  obtain ⟨new, ha, hnm, hcase⟩ := balanced_ok hf h2 h
  rcases hcase with ⟨he, _⟩ | ⟨t, d, hroot, hch, _, _, _, hrefs⟩
  · rw [hp] at he; exact absurd he hne
  · have hfs : db.fstore = true := by simp [DB.fstore, hpath, hr, hnc, hraw]
    rw [hfs, if_pos rfl, hoff, hp, Fresh.cfg hf] at hrefs
    exact fileRefs_of _ (leafNode_dataBytes p TFile hraw) db' 0 chunks (by rw [ha.added, hadd, List.nil_append]; exact hrefs)

example : ∃ r d, Balanced.layout 3 exDBRef = .ok (r, d) ∧ fileRefs d = [(0, [1, 2]), (2, [3]), (3, [4, 5, 6])] := by
  obtain ⟨r, d, h, _⟩ := exBalancedRef
  exact ⟨r, d, h, (C14_balanced_offsets exFreshRef (by decide) rfl rfl (by decide) h).1⟩

/-- C14 for `trickle.Layout`. -/
theorem C14_trickle_offsets {root : Node} (hf : Fresh p path chunks fin budget db) (h1 : 1 ≤ p.maxlinks)
    (hnc : p.noCopy = true) (hraw : p.rawLeaves = true) (h : Trickle.layout fuel db = .ok (root, db')) :
    fileRefs db' = (chunkOffsets 0 chunks).map (fun x => (UInt64.ofNat x.1, x.2)) := by
  obtain ⟨hi, hp, hm, hr, hc, hse, hadd, hoff, hb, hpath⟩ := Fresh.facts hf
  obtain ⟨ts, new, ha, hnm, hroot, hch, hok, hnodes, hrefs⟩ := trickle_ok hf h1 h
  have hfs : db.fstore = true := by simp [DB.fstore, hpath, hr, hnc, hraw]
  rw [hfs, if_pos rfl, hoff] at hrefs
  exact fileRefs_of _ (leafNode_dataBytes p TRaw hraw) db' 0 chunks (by rw [ha.added, hadd, List.nil_append]; exact hrefs)

example : ∃ r d, Trickle.layout 4 exDBRef = .ok (r, d) ∧ fileRefs d = [(0, [1, 2]), (2, [3]), (3, [4, 5, 6])] := by
  obtain ⟨r, d, h, _⟩ := exTrickleRef
  exact ⟨r, d, h, C14_trickle_offsets exFreshRef (by decide) rfl rfl h⟩

/-- C14: without a filestore path or without raw leaves no references are made (trickle). -/
theorem C14_no_refs {root : Node} (hf : Fresh p path chunks fin budget db) (h1 : 1 ≤ p.maxlinks)
    (hn : p.noCopy = false ∨ p.rawLeaves = false) (h : Trickle.layout fuel db = .ok (root, db')) : fileRefs db' = [] := by
  obtain ⟨hi, hp, hm, hr, hc, hse, hadd, hoff, hb, hpath⟩ := Fresh.facts hf
  obtain ⟨ts, new, ha, hnm, hroot, hch, hok, hnodes, hrefs⟩ := trickle_ok hf h1 h
  have hfs : db.fstore = false := by
    unfold DB.fstore; rw [hpath, hr]; rcases hn with h | h <;> simp [h]
  rw [hfs] at hrefs
  have h1 : fileRefs db' = (refs db'.added).map (fun x => (x.1, x.2.dataBytes)) := by
    unfold fileRefs refs
    rw [List.map_filterMap]
    congr 1
    funext b
    cases b.pos <;> simp
  rw [h1, ha.added, hadd, List.nil_append, hrefs]; rfl

example : ∃ r d, Trickle.layout 4 exDB = .ok (r, d) ∧ fileRefs d = [] := by
  obtain ⟨r, d, h, _⟩ := exTrickle
  exact ⟨r, d, h, C14_no_refs exFresh (by decide) (.inl rfl) h⟩

/-! ### C15: leaf and node kinds -/

/-- C15 for `balanced.Layout`: the leaves are exactly the chunks, one each, of the configured kind;
internal nodes are File nodes without data with the configured builder. -/
theorem C15_balanced_kind {root : Built} (hf : Fresh p path chunks fin budget db) (h2 : 2 ≤ p.maxlinks) (hne : chunks ≠ [])
    (h : Balanced.layout fuel db = .ok (root, db')) :
    List.Forall₂ (LeafFor p TFile) (leaves root.node) chunks ∧ ∀ n ∈ internals root.node, InternalFor p n := by
  obtain ⟨hi, hp, hm, hr, hc, _⟩ := Fresh.facts hf
  obtain ⟨new, ha, hnm, hcase⟩ := balanced_ok hf h2 h
  rcases hcase with ⟨he, _⟩ | ⟨t, d, hroot, hch, hleft, _⟩
  · rw [hp] at he; exact absurd he hne
  · rw [hroot, Fresh.cfg hf]
    constructor
    · rw [leaves_toNode _ t (hleft.pos (by omega)), hch, hp]
      exact forall2_leaf p TFile chunks (by rw [← hp]; exact ha.lim)
    · intro n hn; exact internalFor_of (internals_toNode _ t n hn)

example : ∃ r d, Balanced.layout 3 exDB = .ok (r, d) ∧ List.Forall₂ (LeafFor exParams TFile) (leaves r.node) exChunks := by
  obtain ⟨r, d, h, _⟩ := exBalanced
  exact ⟨r, d, h, (C15_balanced_kind exFresh (by decide) (by decide) h).1⟩

example : ∃ r d, Balanced.layout 3 exDBRef = .ok (r, d) ∧ List.Forall₂ (LeafFor exParamsRef TFile) (leaves r.node) exChunks := by
  obtain ⟨r, d, h, _⟩ := exBalancedRef
  exact ⟨r, d, h, (C15_balanced_kind exFreshRef (by decide) (by decide) h).1⟩

/-- C15 for an empty input: `balanced.Layout` returns a single empty leaf of the configured kind. -/
theorem C15_balanced_empty {root : Built} (hf : Fresh p path [] fin budget db) (h2 : 2 ≤ p.maxlinks)
    (h : Balanced.layout fuel db = .ok (root, db')) :
    if p.rawLeaves then root.node = .raw [] (rawBuilder p)
    else ∃ d, root.node = .proto d [] (protoBuilder p) ∧ Pb.Data.unmarshal d = .ok { typ := some TFile, filesize := some 0 } := by
  obtain ⟨hi, hp, hm, hr, hc, _⟩ := Fresh.facts hf
  obtain ⟨new, ha, hnm, hcase⟩ := balanced_ok hf h2 h
  rcases hcase with ⟨he, hn, _⟩ | ⟨t, d, hroot, hch, hleft, _⟩
  · obtain ⟨n, hn', _, _, _, _, _, hk⟩ := emptyLeaf p db hr hc
    rw [hn] at hn'; cases hn'; exact hk
  · rw [hp] at hch
    exact absurd hch (Trickle.Pos.chunks_ne (hleft.pos (by omega)))

example : ∃ r d, Balanced.layout 3 { maxlinks := 2, rawLeaves := true, src := [] } = .ok (r, d) ∧ r.node = .raw [] (rawBuilder { maxlinks := 2, rawLeaves := true }) := by
  have hf : Fresh { maxlinks := 2, rawLeaves := true } none [] none none { maxlinks := 2, rawLeaves := true, src := [] } := ⟨_, rfl, rfl⟩
  obtain ⟨r, d, h⟩ := C13_balanced_terminates (fuel := 3) hf (by decide) (by intro c hc; cases hc) (by decide)
  exact ⟨r, d, h, C15_balanced_empty hf (by decide) h⟩

/-- C15 for `trickle.Layout` (leaves are Raw-typed messages when they are protobuf nodes). -/
theorem C15_trickle_kind {root : Node} (hf : Fresh p path chunks fin budget db) (h1 : 1 ≤ p.maxlinks) (hne : chunks ≠ [])
    (h : Trickle.layout fuel db = .ok (root, db')) :
    List.Forall₂ (LeafFor p TRaw) (leaves root) chunks ∧ ∀ n ∈ internals root, InternalFor p n := by
  obtain ⟨ts, new, ha, hnm, hroot, hch, hok, hnodes, hrefs⟩ := trickle_ok hf h1 h
  have hpos : (T.node ts).Pos := by
    refine ⟨by intro he; subst he; exact hne hch.symm, (T.posL_iff ts).mpr ?_⟩
    intro t ht
    obtain ⟨i, hi⟩ := List.mem_iff_getElem?.mp ht
    by_cases him : i < p.maxlinks
    · obtain ⟨c, rfl⟩ := hok.1 i t hi him; trivial
    · exact (hok.2 i t hi (by omega)).pos
  rw [hroot]
  constructor
  · rw [leaves_toNode _ _ hpos]
    simp only [T.chunks, hch]
    exact forall2_leaf p TRaw chunks ha.lim
  · intro n hn; exact internalFor_of (internals_toNode _ _ n hn)

example : ∃ r d, Trickle.layout 4 exDB = .ok (r, d) ∧ List.Forall₂ (LeafFor exParams TRaw) (leaves r) exChunks := by
  obtain ⟨r, d, h, _⟩ := exTrickle
  exact ⟨r, d, h, (C15_trickle_kind exFresh (by decide) (by decide) h).1⟩

/-! ### C56: link sizes -/

/-- C56 for `balanced.Layout`: every link is unnamed and carries the cumulative size of its target. -/
theorem C56_balanced_tsize {root : Built} (hf : Fresh p path chunks fin budget db) (h2 : 2 ≤ p.maxlinks)
    (h : Balanced.layout fuel db = .ok (root, db')) : LinksTrue root.node := by
  obtain ⟨hi, hp, hm, hr, hc, _⟩ := Fresh.facts hf
  obtain ⟨new, ha, hnm, hcase⟩ := balanced_ok hf h2 h
  rcases hcase with ⟨he, hn, _⟩ | ⟨t, d, hroot, hch, _⟩
  · obtain ⟨n, hn', _, _, hl, _⟩ := emptyLeaf p db hr hc
    rw [hn] at hn'; cases hn'
    cases hrn : root.node with
    | proto d ls b => rw [hrn] at hl; simp only [Node.links] at hl; subst hl; simp [LinksTrue, LinksTrueL]
    | raw d b => simp [LinksTrue]
    | other d => simp [LinksTrue]
  · rw [hroot]; exact linksTrue_toNode _ t

example : ∃ r d, Balanced.layout 3 exDB = .ok (r, d) ∧ LinksTrue r.node := by
  obtain ⟨r, d, h, _⟩ := exBalanced
  exact ⟨r, d, h, C56_balanced_tsize exFresh (by decide) h⟩

/-- C56 for `trickle.Layout`. -/
theorem C56_trickle_tsize {root : Node} (hf : Fresh p path chunks fin budget db) (h1 : 1 ≤ p.maxlinks)
    (h : Trickle.layout fuel db = .ok (root, db')) : LinksTrue root := by
  obtain ⟨ts, new, ha, hnm, hroot, _⟩ := trickle_ok hf h1 h
  rw [hroot]; exact linksTrue_toNode _ _

example : ∃ r d, Trickle.layout 4 exDB = .ok (r, d) ∧ LinksTrue r := by
  obtain ⟨r, d, h, _⟩ := exTrickle
  exact ⟨r, d, h, C56_trickle_tsize exFresh (by decide) h⟩

end

end Unixfs.Props
