import Verif.Reader.Local
import Verif.Import.Importer
import Verif.Props.Import
import Verif.Props.Reader

/-!
# Import and read back (C77), reads of a range (C78)

`Serves net t S`: from fetch `t` on the DAG service delivers the blocks of the set `S`; nothing is said
about other blocks, which may be missing. `FlatRun c p ops rs p'`: `rs` are the results that the calls
`ops` have on a plain byte string `c` (`Verif/Spec/Reader`).
-/

namespace Unixfs.Props
open Unixfs Unixfs.Spec Unixfs.Reader Unixfs.Import

variable {net net' : Net} {t : Nat} {n x : Node} {c : Bytes} {dr : DR}

/-! ### C77 -/

/-- A node with true sizes opens as itself. -/
theorem opens_self (hs : SizesTrue x) : Opens x x := by
  match x with
  | .raw d b => exact .raw d b
  | .other d => exact hs.elim
  | .proto d ls b => obtain ⟨m, hm, hf, _⟩ := hs; exact .file d ls b m hm hf

/-- C77: a reader asks only for blocks of its file: two DAG services that treat these blocks alike
give the same results for every history of calls. -/
theorem C77_only_own_blocks (hd : newDagReader net t n = .ok dr) (h : ∀ u y, Reach dr.root y → net u y = net' u y) (ops : List ROp) :
    dr.run net ops = dr.run net' ops := by
  obtain ⟨_, _, h3, _⟩ := open_conv net n t dr hd
  exact run_agree ops h (by rw [h3]; intro f hf; simp at hf)

/-- `newDagReader` of a file node does not fetch. -/
theorem newDagReader_file (hs : SizesTrue x) (net net' : Net) (t : Nat) : newDagReader net t x = newDagReader net' t x := by
  match x, hs with
  | .raw d b, _ => rw [newDagReader_raw, newDagReader_raw]
  | .proto d ls b, hs =>
    obtain ⟨m, hm, hf, _⟩ := hs
    have hty := (isFileMsg_type (Pb.Data.unmarshal_wf hm).typ).mp hf
    simp only [newDagReader, FSNode.fromBytes, hm, hty, if_true]

open Classical in
/-- A file of true sizes all of whose blocks can be fetched reads as a plain byte string. -/
theorem read_back (hs : SizesTrue x) (hc : content x = some c) (hl : c.length < 2 ^ 63) (hn : Serves net t (Reach x)) (ops : List ROp) (hg : GoodWriters ops) :
    ∃ dr, newDagReader net t x = .ok dr ∧ dr.size.toNat = c.length ∧ ∃ p, FlatRun c 0 ops (dr.run net ops).1 p := by
  -- a network that has all other blocks too
  let net' : Net := fun u y => if Reach x y then net u y else true
  have hw : WorksFrom net' t := by
    intro u hu y
    show (if Reach x y then net u y else true) = true
    split
    · exact hn u hu y ‹_›
    · rfl
  obtain ⟨dr, h1, h2⟩ := C20_flat_reader hw (opens_self hs) hs hc hl ops hg
  obtain ⟨dr', g1, g2, _⟩ := C21_size hw (opens_self hs) hs hc hl (fun _ => none) (fun _ => rfl)
  rw [h1] at g1; cases g1
  have hx : newDagReader net t x = .ok dr := by rw [newDagReader_file hs net net' t]; exact h1
  have hroot : dr.root = x := by
    obtain ⟨dr2, k1, k2, _⟩ := open_ok net' x x t (opens_self hs) hw
    rw [h1] at k1; cases k1; exact k2
  refine ⟨dr, hx, g2, ?_⟩
  rw [C77_only_own_blocks hx (net' := net') (fun u y hy => ?_) ops]
  · exact h2
  · rw [hroot] at hy
    show net u y = if Reach x y then net u y else true
    rw [if_pos hy]

variable {p : Params} {path : Option Bytes} {chunks : List Bytes} {db : DB} {fuel : Nat}

/-- C77: a balanced import of `chunks` succeeds, and the file read back through a DAG service that has
only the blocks the import stored is the concatenation of the chunks, for every history of reads,
seeks and copies. -/
theorem C77_balanced (hf : Fresh p path chunks none none db) (h2 : 2 ≤ p.maxlinks) (hfit : AllFit chunks) (hl : chunks.flatten.length < 2 ^ 63)
    (hfuel : chunks.length ≤ fuel) :
    ∃ root db', Balanced.layout fuel db = .ok (root, db') ∧
      ∀ (net : Net) (t : Nat), Serves net t (Stored db') → ∀ ops, GoodWriters ops →
        ∃ dr, newDagReader net t root.node = .ok dr ∧ dr.size.toNat = chunks.flatten.length ∧ ∃ q, FlatRun chunks.flatten 0 ops (dr.run net ops).1 q := by
  obtain ⟨root, db', h⟩ := C13_balanced_terminates hf h2 hfit hfuel
  refine ⟨root, db', h, fun net t hn ops hg => ?_⟩
  exact read_back (C08_balanced_sizes hf h2 h) (C06_balanced_content hf h2 h) hl (fun u hu y hy => hn u hu y (C11_balanced_stored hf h2 h y hy)) ops hg

/-- C77 for trickle imports. -/
theorem C77_trickle (hf : Fresh p path chunks none none db) (h1 : 1 ≤ p.maxlinks) (hfit : AllFit chunks) (hl : chunks.flatten.length < 2 ^ 63)
    (hfuel : chunks.length < fuel) :
    ∃ root db', Trickle.layout fuel db = .ok (root, db') ∧
      ∀ (net : Net) (t : Nat), Serves net t (Stored db') → ∀ ops, GoodWriters ops →
        ∃ dr, newDagReader net t root = .ok dr ∧ dr.size.toNat = chunks.flatten.length ∧ ∃ q, FlatRun chunks.flatten 0 ops (dr.run net ops).1 q := by
  obtain ⟨root, db', h⟩ := C13_trickle_terminates hf h1 hfit hfuel
  refine ⟨root, db', h, fun net t hn ops hg => ?_⟩
  exact read_back (C08_trickle_sizes hf h1 h) (C07_trickle_content hf h1 h) hl (fun u hu y hy => hn u hu y (C11_trickle_stored hf h1 h y hy)) ops hg

/-- C77 for `BuildDagFromReader`. -/
theorem C77_build_dag (hfit : AllFit chunks) (hl : chunks.flatten.length < 2 ^ 63) (hfuel : chunks.length ≤ fuel) :
    ∃ root db', buildDag fuel chunks none none = .ok (root, db') ∧
      ∀ (net : Net) (t : Nat), Serves net t (Stored db') → ∀ ops, GoodWriters ops →
        ∃ dr, newDagReader net t root = .ok dr ∧ dr.size.toNat = chunks.flatten.length ∧ ∃ q, FlatRun chunks.flatten 0 ops (dr.run net ops).1 q := by
  obtain ⟨root, db', h, hr⟩ := C77_balanced (p := { maxlinks := defaultLinksPerBlock }) (path := none) ⟨_, rfl, rfl⟩ (by decide) hfit hl hfuel
  exact ⟨root.node, db', by rw [buildDag]; simp only [Params.new, Bool.false_and, Bool.false_eq_true, if_false] at h ⊢; rw [h], hr⟩

/-- C77 for `BuildTrickleDagFromReader`. -/
theorem C77_build_trickle_dag (hfit : AllFit chunks) (hl : chunks.flatten.length < 2 ^ 63) (hfuel : chunks.length < fuel) :
    ∃ root db', buildTrickleDag fuel chunks none none = .ok (root, db') ∧
      ∀ (net : Net) (t : Nat), Serves net t (Stored db') → ∀ ops, GoodWriters ops →
        ∃ dr, newDagReader net t root = .ok dr ∧ dr.size.toNat = chunks.flatten.length ∧ ∃ q, FlatRun chunks.flatten 0 ops (dr.run net ops).1 q := by
  obtain ⟨root, db', h, hr⟩ := C77_trickle (p := { maxlinks := defaultLinksPerBlock }) (path := none) ⟨_, rfl, rfl⟩ (by decide) hfit hl hfuel
  exact ⟨root, db', h, hr⟩

/-- C77: what `BuildDagFromReader` returns is never a truncated file: on success the input was read up
to EOF, no chunk was oversized and every block of the file was stored. -/
theorem C77_build_dag_whole {fin : Option Err} {budget : Option Nat} {root : Node} {db' : DB} (h : buildDag fuel chunks fin budget = .ok (root, db')) :
    fin = none ∧ AllFit chunks ∧ content root = some chunks.flatten ∧ ∀ y, Reach root y → Stored db' y := by
  rw [buildDag] at h
  simp only [Params.new, Bool.false_and, Bool.false_eq_true, if_false] at h
  split at h
  · cases h
  · rename_i r d hb
    cases h
    have hf : Fresh { maxlinks := defaultLinksPerBlock } none chunks fin budget
      { maxlinks := defaultLinksPerBlock, src := chunks, srcEnd := fin, addBudget := budget } := ⟨_, rfl, rfl⟩
    have h2 : 2 ≤ defaultLinksPerBlock := by decide
    obtain ⟨g1, g2⟩ := C12_balanced_no_truncation hf h2 hb
    exact ⟨g1, g2, C06_balanced_content hf h2 hb, C11_balanced_stored hf h2 hb⟩

/-- C77: as above for `BuildTrickleDagFromReader`. -/
theorem C77_build_trickle_dag_whole {fin : Option Err} {budget : Option Nat} {root : Node} {db' : DB} (h : buildTrickleDag fuel chunks fin budget = .ok (root, db')) :
    fin = none ∧ AllFit chunks ∧ content root = some chunks.flatten ∧ ∀ y, Reach root y → Stored db' y := by
  rw [buildTrickleDag] at h
  simp only [Params.new, Bool.false_and, Bool.false_eq_true, if_false] at h
  have hf : Fresh { maxlinks := defaultLinksPerBlock } none chunks fin budget
    { maxlinks := defaultLinksPerBlock, src := chunks, srcEnd := fin, addBudget := budget } := ⟨_, rfl, rfl⟩
  have h1 : 1 ≤ defaultLinksPerBlock := by decide
  obtain ⟨g1, g2⟩ := C12_trickle_no_truncation hf h1 h
  exact ⟨g1, g2, C07_trickle_content hf h1 h, C11_trickle_stored hf h1 h⟩

/-- C77: a splitter that fails makes `BuildDagFromReader` fail; so does a DAG service that refuses the first node. -/
example : (match buildDag 9 [[1], [2]] (some .eof) none with | .ok _ => true | .error _ => false) = false ∧
    (match buildDag 9 [[1], [2]] none (some 0) with | .ok _ => true | .error _ => false) = false ∧
    (match buildTrickleDag 9 [[1], [2]] (some .eof) none with | .ok _ => true | .error _ => false) = false ∧
    (match buildTrickleDag 9 [[1], [2]] none (some 0) with | .ok _ => true | .error _ => false) = false := by decide +kernel

/-! ### C78 -/

/-- C78: after a `Seek` to `off` within the file, reads of `ks.sum` bytes in all give what a plain byte
string gives, provided the blocks with bytes in the range `off … off + ks.sum` can be fetched; all
other blocks of the file may be missing. -/
theorem C78_range (hd : newDagReader net t n = .ok dr) (hs : SizesTrue dr.root) (hc : content dr.root = some c) (hl : c.length < 2 ^ 63)
    (off : Int64) (ks : List Nat) (h0 : 0 ≤ off.toInt) (ha : off.toInt.toNat ≤ c.length) (hk : ∀ k ∈ ks, 0 < k) (hne : ks ≠ [])
    (hn : Serves net dr.tick (Needed dr.root off.toInt.toNat (off.toInt.toNat + ks.sum))) :
    ∃ p, FlatRun c 0 (.seek off 0 :: ks.map .read) (dr.run net (.seek off 0 :: ks.map .read)).1 p := by
  obtain ⟨ho, hz, h3, h4, h5, h6⟩ := open_conv net n t dr hd
  have hI := inv_open hc hl h3 h4 h5
  have hso : SeekOK dr c := ⟨hs, recordedSize_true hs hc hz⟩
  have hg : GoodWriters (.seek off 0 :: ks.map .read) := by intro w hw; simp at hw
  have hw : WorksFrom allNet dr.tick := allNet_works _
  obtain ⟨p, _, _, h⟩ := cut_run allNet (.seek off 0 :: ks.map .read) hI (.inr hso) hg (works_noSeekFailed allNet _ hI (.inr hso) hw)
  refine ⟨p, ?_⟩
  have hpos : 0 < ks.sum := by
    cases ks with
    | nil => exact absurd rfl hne
    | cons k ks => have := hk k (by simp); rw [List.sum_cons]; omega
  have hloc : Loc dr.root c.length dr.path := by rw [h3]; trivial
  have hoff : off.toInt = (off.toInt.toNat : Int) := by omega
  obtain ⟨l1, l2⟩ := seekStart_local (net := net) (a := off.toInt.toNat) (B := off.toInt.toNat + ks.sum) hI hs hloc hn (by omega)
  have hall := seekStart_spec allNet hI hs off.toInt.toNat (by omega)
  suffices hh : dr.run net (.seek off 0 :: ks.map .read) = dr.run allNet (.seek off 0 :: ks.map .read) by rw [hh]; exact h hw
  have e1 : dr.step net (.seek off 0) = dr.seekStart net off.toInt.toNat := by rw [← hoff]; rfl
  have e2 : dr.step allNet (.seek off 0) = dr.seekStart allNet off.toInt.toNat := by rw [← hoff]; rfl
  rw [run_cons, run_cons, e1, e2, l1]
  rw [l1] at l2
  generalize dr.seekStart allNet off.toInt.toNat = D at *
  have hr : D.2.run net (ks.map .read) = D.2.run allNet (ks.map .read) := by
    have hn' : Serves net D.2.tick (Needed D.2.root off.toInt.toNat (off.toInt.toNat + ks.sum)) := by
      rw [hall.root]; exact serves_mono hn hall.tick_le fun _ h => h
    rcases hall.ok (by omega) with ⟨_, ⟨hq, hdr⟩ | ⟨_, hI'⟩⟩ | ⟨_, hf, _⟩
    · rw [hdr] at hn' ⊢
      exact reads_local ks hI hloc hk hn' (by omega) (by omega) (by omega)
    · rw [Int.toNat_natCast] at hI'
      exact reads_local ks hI' (by rw [hall.root]; exact l2) hk hn' (Nat.le_refl _) ha (Nat.le_refl _)
    · exact (hf.not_works hw).elim
  rw [hr]

/-- C78 for reads from the beginning, without a seek. -/
theorem C78_prefix (hd : newDagReader net t n = .ok dr) (hc : content dr.root = some c) (hl : c.length < 2 ^ 63)
    (ks : List Nat) (hk : ∀ k ∈ ks, 0 < k) (hn : Serves net dr.tick (Needed dr.root 0 ks.sum)) :
    ∃ p, FlatRun c 0 (ks.map .read) (dr.run net (ks.map .read)).1 p := by
  obtain ⟨ho, hz, h3, h4, h5, h6⟩ := open_conv net n t dr hd
  have hI := inv_open hc hl h3 h4 h5
  have hw : WorksFrom allNet dr.tick := allNet_works _
  have hnos : ∀ off wh, ROp.seek off wh ∉ ks.map ROp.read := by intro o w h; simp at h
  have hg : GoodWriters (ks.map .read) := by intro w hw; simp at hw
  obtain ⟨p, _, _, h⟩ := cut_run allNet (ks.map .read) hI (.inl hnos) hg (works_noSeekFailed allNet _ hI (.inl hnos) hw)
  refine ⟨p, ?_⟩
  rw [reads_local ks hI (by rw [h3]; trivial) hk hn (Nat.le_refl _) (by omega) (by omega)]
  exact h hw

/-! ### Examples -/

/-- A DAG service that lost the first leaf of `exFile`. -/
def exHole : Net := fun _ y => y != .raw [1, 2] .v0

/-- The second half of `exFile` needs only blocks that `exHole` has. -/
theorem exHole_serves : Serves exHole 0 (Needed exFile 2 4) := by
  intro u _ y hy
  obtain ⟨s, hat, hs, hr⟩ := hy
  have : y ≠ .raw [1, 2] .v0 := by
    rintro rfl
    have hlen : contentLen (.raw [1, 2] .v0) = 2 := rfl
    rw [hlen] at hr
    have hleaf : ∀ {d : Bytes} {s : Nat} {y : Node}, At (.raw d .v0) s y → y = .raw d .v0 ∧ s = 0 := by
      intro d s y h
      cases h with
      | here => exact ⟨rfl, rfl⟩
      | child hl _ _ => simp [Node.links] at hl
    generalize hz : (Node.raw [1, 2] .v0) = z at hat
    unfold exFile at hat
    cases hat with
    | here => cases hz
    | child hl ha h =>
      rename_i l pre post a s'
      match pre with
      | [] =>
        simp only [Node.links, List.nil_append, List.cons.injEq] at hl
        simp only [contentL, Option.some.injEq] at ha
        subst ha
        rw [← hl.1] at h
        have := (hleaf h).2
        simp only [List.length_nil] at hr
        omega
      | [l0] =>
        simp only [Node.links, List.cons_append, List.nil_append, List.cons.injEq] at hl
        rw [← hl.2.1] at h
        have := (hleaf h).1
        rw [this] at hz
        exact absurd hz (by decide)
      | l0 :: l1 :: pre => simp [Node.links] at hl
  simpa [exHole] using this

/-- C78 applies: with the first leaf lost, bytes 2 and 3 can be read, and bytes 0 and 1 cannot. -/
example : newDagReader exHole 0 exFile = .ok exReader ∧ SizesTrue exReader.root ∧ content exReader.root = some [1, 2, 3, 4] ∧
    Serves exHole exReader.tick (Needed exReader.root 2 4) ∧
    (exReader.run exHole [.seek 2 0, .read 1, .read 1]).1 = [{ n := 2 }, { bytes := [3], n := 1 }, { bytes := [4], n := 1 }] ∧
    (exReader.run exHole [.seek 0 0, .read 1]).1 = [{ n := 0 }, { n := 0, err := some .notFound }] :=
  ⟨by decide +kernel, exFile_sizes, by decide +kernel, exHole_serves, by decide +kernel, by decide +kernel⟩

/-- An import that C77 applies to. -/
example : Fresh { maxlinks := 2 } none [[1], [2], [3]] none none { maxlinks := 2, src := [[1], [2], [3]] } ∧ AllFit [[1], [2], [3]] :=
  ⟨⟨_, rfl, rfl⟩, by intro c hc; simp at hc; rcases hc with rfl | rfl | rfl <;> decide⟩

end Unixfs.Props
