import Verif.Import.Form
import Verif.Props.Dedup
import Verif.Props.Sessions
import Verif.Props.Reader

/-!
# C112: the node of an imported file is the published layout of its chunks

The specification is in `Verif/Spec/FileForm.lean`: the two layouts as plain groupings of the chunks, and the bytes of leaves and inner nodes by the
grammar of `Verif/Spec/Bytes.lean`. It does not mention the builder, its recursion or its state.
-/

namespace Unixfs.Props
open Unixfs Unixfs.Spec Unixfs.Import

variable {p : Params} {path : Option Bytes} {chunks : List Bytes} {fin : Option Err} {budget : Option Nat} {db db' : DB} {fuel : Nat}

theorem fold_part (p : Params) (typ : UInt8) (ht : typ.toNat < 128) (t : T) (hlen : t.chunks.flatten.length < 2 ^ 64) :
    t.fold (leafPart p typ) (innerPart p) = ⟨t.toNode ⟨p.rawLeaves, p.cidBuilder, UInt32.ofNat typ.toNat⟩, t.chunks.flatten.length⟩ :=
  render p typ ht (sizeOf t + 1) t (by omega) hlen

/-- C112 for `balanced.Layout`: the node is the balanced layout of the leaves for the chunks, in order. -/
theorem C112_balanced {root : Built} (hf : Fresh p path chunks fin budget db) (h2 : 2 ≤ p.maxlinks) (hne : chunks ≠ []) (hlen : chunks.flatten.length < 2 ^ 64)
    (h : Balanced.layout fuel db = .ok (root, db')) :
    BalancedForm (innerPart p) p.maxlinks (chunks.map (leafPart p 2)) ⟨root.node, chunks.flatten.length⟩ := by
  obtain ⟨hi, hp, hm, hr, hc, _⟩ := Fresh.facts hf
  obtain ⟨new, ha, hnm, hcase⟩ := balanced_ok hf h2 h
  rw [hp] at hcase
  rcases hcase with ⟨he, _⟩ | ⟨t, d, hroot, hch, hl, hd, _⟩
  · exact absurd he hne
  · rw [hm] at hl hd
    have hb := left_balancedForm h2 hl (by rw [hch]; exact hd)
    have hb' := balancedForm_map (T.fold (leafPart p 2) (innerPart p)) (T.fold_node _ _) hb
    rw [fold_part p 2 (by decide) t (by rw [hch]; exact hlen), List.map_map, hch] at hb'
    rw [hroot, Fresh.cfg hf]
    exact hb'

/-- C112 for `balanced.Layout` and an empty file: one leaf without data. -/
theorem C112_balanced_empty {root : Built} (hf : Fresh p path [] fin budget db) (h2 : 2 ≤ p.maxlinks) (h : Balanced.layout fuel db = .ok (root, db')) :
    root.node = if p.rawLeaves then .raw [] (rawBuilder p) else .proto [0x08, 2, 0x18, 0] [] (protoBuilder p) := by
  obtain ⟨hi, hp, hm, hr, hc, _⟩ := Fresh.facts hf
  obtain ⟨new, ha, hnm, hcase⟩ := balanced_ok hf h2 h
  rw [hp] at hcase
  rcases hcase with ⟨_, hn, _⟩ | ⟨t, d, hroot, hch, hl, hd, _⟩
  · unfold DB.newLeafNode at hn
    simp only [Option.getD_none, List.length_nil] at hn
    rw [if_neg (by simp)] at hn
    by_cases hraw : p.rawLeaves
    · simp only [hr, hraw, if_true, DB.rawNode, hc, Except.ok.injEq] at hn
      rw [if_pos hraw, ← hn, rawBuilder]
      cases p.cidBuilder <;> rfl
    · simp only [hr, hraw] at hn
      rw [FSN.commit_of_typ _ (by rfl)] at hn
      have hpb : db.pbBuilder = protoBuilder p := by
        simp only [DB.pbBuilder, protoBuilder, hc]; cases p.cidBuilder <;> rfl
      have hb : ((FSNode.new TFile).setData none).bytes = [0x08, 2, 0x18, 0] := by decide +kernel
      simp only [FSN.setFileData, FSN.new, hpb] at hn
      rw [if_neg hraw, ← hb]
      exact (Except.ok.inj hn).symm
  · rw [hm] at hl
    have := (Balanced.Left.count (by omega) hl).1
    rw [hch] at this
    simp at this

/-- C112 for `trickle.Layout`, for every file, also an empty one. -/
theorem C112_trickle {root : Node} (hf : Fresh p path chunks fin budget db) (h1 : 1 ≤ p.maxlinks) (hlen : chunks.flatten.length < 2 ^ 64)
    (h : Trickle.layout fuel db = .ok (root, db')) :
    TrickleForm (leafPart p 0) (innerPart p) p.maxlinks none false chunks ⟨root, chunks.flatten.length⟩ := by
  obtain ⟨hi, hp, hm, hr, hc, _⟩ := Fresh.facts hf
  obtain ⟨ts, hroot, hch, hl⟩ := Trickle.layoutF db hi (by omega) fuel h
  rw [hp] at hch
  rw [hm] at hl
  have hb := trickleForm_map (T.fold (leafPart p 0) (innerPart p)) (fun _ => rfl) (T.fold_node _ _) (Trickle.lg_form (by omega) hl)
  rw [hch, fold_part p 0 (by decide) (.node ts) (by rw [T.chunks, hch]; exact hlen), T.chunks, hch] at hb
  rw [hroot, Fresh.cfg hf]
  exact hb

/-- C112: the layouts determine the node. Whatever builds a file of these chunks in the published layout gets this node. -/
theorem C112_unique (p : Params) (chunks : List Bytes) (typ : UInt8) (x y : Part) :
    (BalancedForm (innerPart p) p.maxlinks (chunks.map (leafPart p typ)) x →
      BalancedForm (innerPart p) p.maxlinks (chunks.map (leafPart p typ)) y → x = y) ∧
    (TrickleForm (leafPart p typ) (innerPart p) p.maxlinks none false chunks x →
      TrickleForm (leafPart p typ) (innerPart p) p.maxlinks none false chunks y → x = y) :=
  ⟨fun h h' => balancedForm_unique h h', fun h h' => Trickle.trickleForm_unique h h'⟩

theorem read_tree {p : Params} {typ : UInt8} (ht : typ = 0 ∨ typ = 2) (t : T) (hfit : AllFit t.chunks) (hlen : t.chunks.flatten.length < 2 ^ 63) :
    (t.fold (leafPart p typ) (innerPart p)).bytes = t.chunks.flatten.length ∧ SizesTrue (t.fold (leafPart p typ) (innerPart p)).node ∧
      content (t.fold (leafPart p typ) (innerPart p)).node = some t.chunks.flatten := by
  have hok : Cfg.OK ⟨p.rawLeaves, p.cidBuilder, UInt32.ofNat typ.toNat⟩ := by
    rcases ht with rfl | rfl
    · exact cfgOK_raw _ _
    · exact cfgOK_file _ _
  rw [fold_part p typ (by rcases ht with rfl | rfl <;> decide) t (by omega)]
  exact ⟨rfl, sizesTrue_toNode _ hok t (T.lim_of_chunks t hfit), content_toNode _ hok t (T.lim_of_chunks t hfit)⟩

theorem read_form {p : Params} {typ : UInt8} {chunks : List Bytes} {x : Part}
    (h : BalancedForm (innerPart p) p.maxlinks (chunks.map (leafPart p typ)) x ∨ TrickleForm (leafPart p typ) (innerPart p) p.maxlinks none false chunks x) :
    ∃ t : T, x = t.fold (leafPart p typ) (innerPart p) ∧ t.chunks = chunks := by
  rcases h with h | h
  · obtain ⟨t, h1, h2⟩ := tree_of_balancedForm (leaf := leafPart p typ) h (chunks.map T.leaf) (by rw [List.map_map]; rfl)
    refine ⟨t, h1, h2.trans ?_⟩
    rw [T.chunksL_flatMap, List.flatMap_map]
    simp [T.chunks]
  · obtain ⟨ts, h1, h2, _⟩ := Trickle.tree_of_form h
    exact ⟨_, h1, h2⟩

/-- C112, reading: a file in one of the two layouts, whoever made it, with leaves of type 0 or 2 or raw leaves, is opened by `NewDagReader`; the reader
has the recorded size and answers all calls as a flat file of the chunks does. -/
theorem C112_read {p : Params} {typ : UInt8} {chunks : List Bytes} {x : Part} (ht : typ = 0 ∨ typ = 2) (hfit : AllFit chunks) (hlen : chunks.flatten.length < 2 ^ 63)
    (h : BalancedForm (innerPart p) p.maxlinks (chunks.map (leafPart p typ)) x ∨ TrickleForm (leafPart p typ) (innerPart p) p.maxlinks none false chunks x)
    {net : Net} {t : Nat} (hw : WorksFrom net t) (ops : List ROp) (hg : GoodWriters ops) :
    ∃ dr, newDagReader net t x.node = .ok dr ∧ dr.size.toNat = x.bytes ∧ x.bytes = chunks.flatten.length ∧ ∃ q, FlatRun chunks.flatten 0 ops (dr.run net ops).1 q := by
  obtain ⟨tr, rfl, rfl⟩ := read_form h
  obtain ⟨h1, h2, h3⟩ := read_tree (p := p) ht tr hfit hlen
  obtain ⟨dr, d1, q, d2⟩ := C20_flat_reader hw (Mod.opens_of_sizesTrue h2) h2 h3 hlen ops hg
  obtain ⟨dr', e1, e2, _⟩ := C21_size hw (Mod.opens_of_sizesTrue h2) h2 h3 hlen (fun _ => none) (fun _ => rfl)
  rw [d1] at e1
  cases e1
  exact ⟨dr, d1, by rw [e2, h1], h1, q, d2⟩

/-- C112: a file that was imported with the trickle layout, extended and edited in sessions that keep to the chunks is at each time the trickle layout of its
chunks. -/
theorem C112_sessions {n : Node} (hp : AsModified p) (h : InSessions p n chunks) (hlen : chunks.flatten.length < 2 ^ 64) :
    TrickleForm (leafPart p 0) (innerPart p) p.maxlinks none false chunks ⟨n, chunks.flatten.length⟩ := by
  obtain ⟨ts, hroot, hch, hl, _⟩ := sessions_tree hp h
  have hb := trickleForm_map (T.fold (leafPart p 0) (innerPart p)) (fun _ => rfl) (T.fold_node _ _) (Trickle.lg_form (by rw [hp.1]; decide) hl)
  rw [hch, fold_part p 0 (by decide) (.node ts) (by rw [T.chunks, hch]; exact hlen), T.chunks, hch] at hb
  rw [hroot]
  exact hb

theorem part_ext {n n' : Node} {a b : Nat} (h : (⟨n, a⟩ : Part) = ⟨n', b⟩) : n = n' := congrArg Part.node h

/-! Three chunks, two links per node: two levels in the balanced layout, a node of layer 1 in the trickle layout. -/

/-- The balanced layout of three chunks of 2, 1 and 3 bytes. -/
def exBal : Node :=
  let l1 : Node := .proto [0x08, 2, 0x12, 2, 1, 2, 0x18, 2] [] (protoBuilder exParams)
  let l2 : Node := .proto [0x08, 2, 0x12, 1, 3, 0x18, 1] [] (protoBuilder exParams)
  let l3 : Node := .proto [0x08, 2, 0x12, 3, 4, 5, 6, 0x18, 3] [] (protoBuilder exParams)
  let n1 : Node := .proto [0x08, 2, 0x18, 3, 0x20, 2, 0x20, 1] [.mk [] l1.size l1, .mk [] l2.size l2] (protoBuilder exParams)
  let n2 : Node := .proto [0x08, 2, 0x18, 3, 0x20, 3] [.mk [] l3.size l3] (protoBuilder exParams)
  .proto [0x08, 2, 0x18, 6, 0x20, 3, 0x20, 3] [.mk [] n1.size n1, .mk [] n2.size n2] (protoBuilder exParams)

/-- The trickle layout of the same chunks. -/
def exTri : Node :=
  let l1 : Node := .proto [0x08, 0, 0x12, 2, 1, 2, 0x18, 2] [] (protoBuilder exParams)
  let l2 : Node := .proto [0x08, 0, 0x12, 1, 3, 0x18, 1] [] (protoBuilder exParams)
  let l3 : Node := .proto [0x08, 0, 0x12, 3, 4, 5, 6, 0x18, 3] [] (protoBuilder exParams)
  let n1 : Node := .proto [0x08, 2, 0x18, 3, 0x20, 3] [.mk [] l3.size l3] (protoBuilder exParams)
  .proto [0x08, 2, 0x18, 6, 0x20, 2, 0x20, 1, 0x20, 3] [.mk [] l1.size l1, .mk [] l2.size l2, .mk [] n1.size n1] (protoBuilder exParams)

theorem small_num (k : UInt8) (n : Nat) (h : n < 128) : num k n = [k, UInt8.ofNat n] := by
  unfold num leb
  rw [if_pos h]

theorem small_str (k : UInt8) (d : Bytes) (h : d.length < 128) : str k d = [k, UInt8.ofNat d.length] ++ d := by
  unfold str leb
  rw [if_pos h]; rfl

theorem exBal_form : BalancedForm (innerPart exParams) 2 (exChunks.map (leafPart exParams 2)) ⟨exBal, 6⟩ := by
  refine .level (gs := [[leafPart exParams 2 [1, 2], leafPart exParams 2 [3]], [leafPart exParams 2 [4, 5, 6]]]) (by decide) (.cons (g := [_, _]) rfl (by simp) (.last (by simp) (by simp))) ?_
  refine .level (gs := [[innerPart exParams [leafPart exParams 2 [1, 2], leafPart exParams 2 [3]], innerPart exParams [leafPart exParams 2 [4, 5, 6]]]]) (by simp) (.last (by simp) (by simp)) ?_
  have : (⟨exBal, 6⟩ : Part) = innerPart exParams [innerPart exParams [leafPart exParams 2 [1, 2], leafPart exParams 2 [3]], innerPart exParams [leafPart exParams 2 [4, 5, 6]]] := by
    simp [exBal, innerPart, leafPart, exParams, small_num, small_str]
  rw [this]
  exact .one _

example : ∃ r d, Balanced.layout 3 exDB = .ok (r, d) ∧ r.node = exBal := by
  obtain ⟨r, d, h, _⟩ := exBalanced
  exact ⟨r, d, h, part_ext ((C112_unique exParams exChunks 2 _ _).1 (C112_balanced exFresh (by decide) (by decide) (by decide +kernel) h) exBal_form)⟩

theorem exTri_sub : TrickleForm (leafPart exParams 0) (innerPart exParams) 2 (some 1) false [[4, 5, 6]] (innerPart exParams [leafPart exParams 0 [4, 5, 6]]) := by
  refine TrickleForm.mk [([[4, 5, 6]], leafPart exParams 0 [4, 5, 6])] ?_ ?_ ?_
  · intro i k hk hi
    match i, hk with
    | 0, hk => cases hk; exact ⟨_, rfl⟩
  · intro i k hk hi
    match i, hk, hi with
    | 0, _, hi => simp at hi
  · intro d hd; cases hd; simp

theorem exTri_form : TrickleForm (leafPart exParams 0) (innerPart exParams) 2 none false exChunks ⟨exTri, 6⟩ := by
  have h := TrickleForm.mk (leaf := leafPart exParams 0) (inner := innerPart exParams) (m := 2) (layer := none) (full := false)
    [([[1, 2]], leafPart exParams 0 [1, 2]), ([[3]], leafPart exParams 0 [3]), ([[4, 5, 6]], innerPart exParams [leafPart exParams 0 [4, 5, 6]])]
    (by
      intro i k hk hi
      match i, hk, hi with
      | 0, hk, _ => cases hk; exact ⟨_, rfl⟩
      | 1, hk, _ => cases hk; exact ⟨_, rfl⟩)
    (by
      intro i k hk hi
      match i, hk, hi with
      | 2, hk, _ => cases hk; exact exTri_sub)
    (by simp)
  have : (⟨exTri, 6⟩ : Part) = innerPart exParams [leafPart exParams 0 [1, 2], leafPart exParams 0 [3], innerPart exParams [leafPart exParams 0 [4, 5, 6]]] := by
    simp [exTri, innerPart, leafPart, exParams, small_num, small_str]
  rw [this]
  exact h

example : ∃ r d, Trickle.layout 4 exDB = .ok (r, d) ∧ r = exTri := by
  obtain ⟨r, d, h, _⟩ := exTrickle
  exact ⟨r, d, h, part_ext ((C112_unique exParams exChunks 0 _ _).2 (C112_trickle exFresh (by decide) (by decide +kernel) h) exTri_form)⟩

/-- Seeking and reading in the node above. -/
example : ∃ dr, newDagReader exNetAll 0 exTri = .ok dr ∧ dr.size.toNat = 6 ∧ ∃ q, FlatRun [1, 2, 3, 4, 5, 6] 0 [.read 2, .seek 4 0, .read 5] (dr.run exNetAll [.read 2, .seek 4 0, .read 5]).1 q := by
  obtain ⟨dr, h1, h2, _, h3⟩ := C112_read (p := exParams) (.inl rfl) exFit (by decide) (.inr exTri_form) (net := exNetAll) (t := 0) (fun _ _ _ => rfl) [.read 2, .seek 4 0, .read 5] (by intro w hw; simp at hw)
  exact ⟨dr, h1, h2, h3⟩

/-- A file after four sessions. -/
example : TrickleForm (leafPart { maxlinks := 174, rawLeaves := true, cidBuilder := some longBuilder } 0)
    (innerPart { maxlinks := 174, rawLeaves := true, cidBuilder := some longBuilder }) 174 none false [[1, 21], [30]] ⟨longTrickle true (some longBuilder) [[1, 21], [30]], 3⟩ :=
  C112_sessions ⟨rfl, by decide, by decide⟩ exSessions (by decide)

/-- An import of an empty file. -/
example : ∃ r d, Balanced.layout 3 { exDB with src := [] } = .ok (r, d) ∧ r.node = .proto [0x08, 2, 0x18, 0] [] (protoBuilder exParams) := by
  obtain ⟨r, d, h, _⟩ := ok_of (r := Balanced.layout 3 { exDB with src := [] }) (fun r : Built => r.node.links.length) (n := 0) (by decide +kernel)
  exact ⟨r, d, h, C112_balanced_empty (p := exParams) (path := none) (fin := none) (budget := none) ⟨_, rfl, rfl⟩ (by decide) h⟩

end Unixfs.Props
