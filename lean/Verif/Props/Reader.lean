import Verif.Reader.Terminate

/-! # C19–C25, C59, C60: `io.NewDagReader` and the reader it returns -/

namespace Unixfs.Props
open Unixfs Unixfs.Spec Unixfs.Reader

/-! ### A concrete file, to which the theorems are applied below -/

/-- A file of two raw blocks. -/
def exData : Bytes := mustMarshal { typ := some TFile, filesize := some 4, blocksizes := [2, 2] }
def exFile : Node := .proto exData [makeLink [] (.raw [1, 2] .v0), makeLink [] (.raw [3, 4] .v0)] .v0

/-- The first fetch fails. -/
def exNet : Net := fun u _ => u != 0

def exReader : DR := { root := exFile, size := 4, path := [], cur := none, offset := 0, tick := 0 }

theorem exFile_sizes : SizesTrue exFile := by
  have hm : Pb.Data.unmarshal exData = .ok { typ := some TFile, filesize := some 4, blocksizes := [2, 2] } := by decide +kernel
  refine ⟨_, hm, .inl rfl, fun _ => rfl, ?_, ?_, ?_⟩
  · decide +kernel
  · decide +kernel
  · simp [SizesTrueL, makeLink, SizesTrue]

/-- Every fetch succeeds. -/
def exNetAll : Net := fun _ _ => true

theorem exNet_works : WorksFrom exNetAll 0 := fun _ _ _ => rfl
theorem exFile_content : content exFile = some [1, 2, 3, 4] := by decide +kernel
theorem exFile_opens : Opens exFile exFile := .file _ _ _ { typ := some TFile, filesize := some 4, blocksizes := [2, 2] } (by decide +kernel) (.inl rfl)
theorem exReader_new (net : Net) : newDagReader net 0 exFile = .ok exReader := by
  have : newDagReader exNetAll 0 exFile = .ok exReader := by decide +kernel
  exact this

/-- A history of reads, seeks and a `WriteTo`. -/
def exReads : List ROp := [.read 3, .seek (-2) 1, .read 2, .seek (-1) 2, .writeTo (fun _ => none), .read 1, .seek (-9) 1]
theorem exReads_good : GoodWriters exReads := by
  intro w hw
  simp only [exReads, List.mem_cons, List.not_mem_nil, or_false, reduceCtorEq, false_or, ROp.writeTo.injEq] at hw
  subst hw
  exact fun _ => rfl

section
variable {net : Net} {t : Nat} {n x : Node} {c : Bytes} {dr : DR}

/-! ### C25: which nodes can be opened -/

/-- C25: with a working network, `NewDagReader` succeeds exactly on the nodes that stand for a file. -/
theorem C25_accepts (hw : WorksFrom net t) : (∃ dr, newDagReader net t n = .ok dr) ↔ ∃ x, Opens n x := by
  constructor
  · rintro ⟨dr, h⟩; exact ⟨_, (open_conv net n t dr h).1⟩
  · rintro ⟨x, h⟩; obtain ⟨dr, h, _⟩ := open_ok net n x t h hw; exact ⟨dr, h⟩

/-- A metadata node over `exFile` opens as `exFile`. -/
example : ∃ dr, newDagReader exNetAll 0 (.proto (mustMarshal { typ := some TMetadata }) [makeLink [] exFile] .v0) = .ok dr :=
  (C25_accepts exNet_works).mpr ⟨exFile, .metadata _ _ _ _ { typ := some TMetadata } _ (by decide +kernel) rfl rfl exFile_opens⟩

/-- C25: whatever the network does, a reader that was created reads the file the node stands for, its
`Size` is the size that file records, and it starts at position 0. -/
theorem C25_reader (h : newDagReader net t n = .ok dr) :
    Opens n dr.root ∧ RecordedSize dr.root dr.size ∧ (dr.seek net 0 1).1 = { n := 0 } := by
  obtain ⟨h1, h2, _, _, h5, _⟩ := open_conv net n t dr h
  exact ⟨h1, h2, by simp [DR.seek, h5]⟩

example : Opens exFile exFile ∧ RecordedSize exFile 4 ∧ (exReader.seek exNet 0 1).1 = { n := 0 } := C25_reader (exReader_new exNet)

/-- C25: what is rejected, and how. -/
theorem C25_rejects (d : Bytes) (ls : List Link) (b : Builder) :
    (∀ m, Pb.Data.unmarshal d = .ok m → m.typ = some TDirectory ∨ m.typ = some THAMTShard →
      newDagReader net t (.proto d ls b) = .error .isDir) ∧
    (∀ m, Pb.Data.unmarshal d = .ok m → m.typ = some TSymlink → newDagReader net t (.proto d ls b) = .error .cantReadSymlinks) ∧
    (∀ m, Pb.Data.unmarshal d = .ok m → m.typ = some TMetadata → ls = [] → newDagReader net t (.proto d ls b) = .error .incorrectlyFormatted) ∧
    (∀ m l r, Pb.Data.unmarshal d = .ok m → m.typ = some TMetadata → ls = l :: r → net t l.target = false →
      newDagReader net t (.proto d ls b) = .error .notFound) ∧
    (∀ m l r, Pb.Data.unmarshal d = .ok m → m.typ = some TMetadata → ls = l :: r → net t l.target = true → l.target.isProto = false →
      newDagReader net t (.proto d ls b) = .error .notProtobuf) ∧
    (∀ m ty, Pb.Data.unmarshal d = .ok m → m.typ = some ty → 5 < ty → newDagReader net t (.proto d ls b) = .error .unrecognizedType) ∧
    (∀ e, Pb.Data.unmarshal d = .error e → newDagReader net t (.proto d ls b) = .error e) ∧
    newDagReader net t (.other d) = .error .unrecognizedType := by
  refine ⟨?_, ?_, ?_, ?_, ?_, ?_, ?_, by simp [newDagReader]⟩
  · intro m hm ht
    rcases ht with ht | ht <;> simp [newDagReader, FSNode.fromBytes, hm, type_of ht, TDirectory, TFile, TRaw, THAMTShard]
  · intro m hm ht
    simp [newDagReader, FSNode.fromBytes, hm, type_of ht, TDirectory, TFile, TRaw, THAMTShard, TSymlink, TMetadata]
  · rintro m hm ht rfl
    simp [newDagReader, newDagReaderMeta, FSNode.fromBytes, hm, type_of ht, TDirectory, TFile, TRaw, THAMTShard, TMetadata]
  · rintro m ⟨_, _, ch⟩ r hm ht rfl hn
    simp only [Link.target] at hn
    simp [newDagReader, newDagReaderMeta, FSNode.fromBytes, hm, type_of ht, TDirectory, TFile, TRaw, THAMTShard, TMetadata, hn]
  · rintro m ⟨_, _, ch⟩ r hm ht rfl hn hp
    simp only [Link.target] at hn hp
    simp [newDagReader, newDagReaderMeta, FSNode.fromBytes, hm, type_of ht, TDirectory, TFile, TRaw, THAMTShard, TMetadata, hn, hp]
  · intro m ty hm ht hty
    have ne : ∀ k : UInt32, k ≤ 5 → ty ≠ k := by
      rintro k hk rfl; exact absurd hty (by simpa using hk)
    simp [newDagReader, FSNode.fromBytes, hm, type_of ht, TDirectory, TFile, TRaw, THAMTShard, TMetadata, TSymlink,
      ne 0 (by decide), ne 1 (by decide), ne 2 (by decide), ne 3 (by decide), ne 4 (by decide), ne 5 (by decide)]
  · intro e he
    simp [newDagReader, FSNode.fromBytes, he]

example : newDagReader exNet 0 (.proto folderPBData [makeLink [1] exFile] .v0) = .error .isDir :=
  (C25_rejects _ _ _).1 { typ := some TDirectory } (by decide +kernel) (.inl rfl)

/-! ### C19, C20: reading is reading a flat byte string -/

/-- C19: any sequence of `Read`s is a sequence of reads of the flat content from its beginning. The
sizes recorded in the DAG play no role. -/
theorem C19_sequential_read (hw : WorksFrom net t) (ho : Opens n x) (hc : content x = some c) (hl : c.length < 2 ^ 63) (ks : List Nat) :
    ∃ dr, newDagReader net t n = .ok dr ∧ ∃ p, FlatRun c 0 (ks.map .read) (dr.run net (ks.map .read)).1 p := by
  obtain ⟨dr, h1, rfl, _, h3, h4, h5, h6⟩ := open_ok net n x t ho hw
  have hI := inv_open hc hl h3 h4 h5
  have hno : ∀ off wh, ROp.seek off wh ∉ ks.map ROp.read := by simp
  have hw' : WorksFrom net dr.tick := fun u hu => hw u (by omega)
  obtain ⟨p, _, _, h⟩ := cut_run net (ks.map .read) hI (.inl hno) (by intro w hw; simp at hw) (works_noSeekFailed net _ hI (.inl hno) hw')
  exact ⟨dr, h1, p, h hw'⟩

example : ∃ dr, newDagReader exNetAll 0 exFile = .ok dr ∧ ∃ p, FlatRun [1, 2, 3, 4] 0 [.read 3, .read 3, .read 1] (dr.run exNetAll [.read 3, .read 3, .read 1]).1 p :=
  C19_sequential_read exNet_works exFile_opens exFile_content (by decide) [3, 3, 1]

theorem le_sum_of_mem {k : Nat} : ∀ {l : List Nat}, k ∈ l → k ≤ l.sum := by
  intro l
  induction l with
  | nil => simp
  | cons a l ih =>
    intro h
    rw [List.sum_cons]
    rcases List.mem_cons.mp h with rfl | h
    · omega
    · have := ih h; omega

/-- C19, spelled out: the pieces concatenate to the first bytes of the content, and EOF is reported by
exactly those non-empty `Read`s that could not be filled. -/
theorem C19_pieces (c : Bytes) : ∀ (ks : List Nat) (rs : List Res) (p q : Nat), FlatRun c p (ks.map .read) rs q → p ≤ c.length →
    (rs.map Res.bytes).flatten = (c.drop p).take ks.sum ∧ rs.length = ks.length ∧
    ∀ (i : Nat) (k : Nat) (r : Res), ks[i]? = some k → rs[i]? = some r → 0 < k →
      (r.err = some .eof ↔ c.length < p + (ks.take (i + 1)).sum) ∧ (r.err = none ↔ p + (ks.take (i + 1)).sum ≤ c.length) := by
  intro ks
  induction ks with
  | nil => intro rs p q h _; cases h; simp
  | cons k ks ih =>
    intro rs p q h hp
    cases h with
    | cons h1 h2 =>
      rename_i p' r rs
      have hstep : p' = p + min k (c.length - p) ∧ r.bytes = (c.drop p).take k ∧ (0 < k → r.err = if c.length < p + k then some .eof else none) := by
        cases h1 with
        | read _ hk => exact ⟨by simp, rfl, fun _ => rfl⟩
        | read0 e he => simp
      obtain ⟨hp', hb, he⟩ := hstep
      obtain ⟨g1, g2, g3⟩ := ih rs p' q h2 (by omega)
      refine ⟨?_, by simp [g2], ?_⟩
      · simp only [List.map_cons, List.flatten_cons, g1, hb, List.sum_cons]
        rw [List.take_add, List.drop_drop]
        by_cases hlt : c.length ≤ p + k
        · have e1 : c.drop p' = [] := List.drop_eq_nil_of_le (by omega)
          have e2 : c.drop (p + k) = [] := List.drop_eq_nil_of_le (by omega)
          rw [e1, e2]; try simp
        · have : p' = p + k := by omega
          rw [this]
      · intro i k' r' hk' hr' hpos
        cases i with
        | zero =>
          simp only [List.getElem?_cons_zero, Option.some.injEq] at hk' hr'
          subst hk' hr'
          rw [he hpos]
          simp only [Nat.zero_add, List.take_succ_cons, List.take_zero, List.sum_cons, List.sum_nil, Nat.add_zero]
          by_cases hlt : c.length < p + k
          · simp [hlt]
          · simp [hlt]; omega
        | succ i =>
          have := g3 i k' r' (by simpa using hk') (by simpa using hr') hpos
          rw [List.take_succ_cons, List.sum_cons]
          have hk1 : k' ≤ (ks.take (i + 1)).sum := by
            have hm : k' ∈ ks.take (i + 1) := by
              have hks : ks[i]? = some k' := by simpa using hk'
              obtain ⟨hi, hki⟩ := List.getElem?_eq_some_iff.mp hks
              rw [List.mem_take_iff_getElem]
              exact ⟨i, by omega, hki⟩
            exact le_sum_of_mem hm
          by_cases hlt : c.length ≤ p + k
          · have e1 : p' = c.length := by omega
            rw [e1] at this
            constructor
            · rw [this.1]; omega
            · rw [this.2]; omega
          · have e1 : p' = p + k := by omega
            rw [e1] at this
            constructor
            · rw [this.1]; omega
            · rw [this.2]; omega

example : ∃ dr, newDagReader exNetAll 0 exFile = .ok dr ∧ (((dr.run exNetAll [.read 3, .read 3, .read 1]).1).map Res.bytes).flatten = [1, 2, 3, 4] := by
  obtain ⟨dr, h, p, hr⟩ := C19_sequential_read exNet_works exFile_opens exFile_content (by decide) [3, 3, 1]
  exact ⟨dr, h, (C19_pieces _ [3, 3, 1] _ _ _ hr (by decide)).1⟩

/-- C20: on a DAG whose recorded sizes are true, any history of `Read`, `Seek` and `WriteTo` calls
behaves exactly as on a flat reader over the content. -/
theorem C20_flat_reader (hw : WorksFrom net t) (ho : Opens n x) (hs : SizesTrue x) (hc : content x = some c) (hl : c.length < 2 ^ 63)
    (ops : List ROp) (hg : GoodWriters ops) :
    ∃ dr, newDagReader net t n = .ok dr ∧ ∃ p, FlatRun c 0 ops (dr.run net ops).1 p := by
  obtain ⟨dr, h1, rfl, hz, h3, h4, h5, h6⟩ := open_ok net n x t ho hw
  have hI := inv_open hc hl h3 h4 h5
  have hso : SeekOK dr c := ⟨hs, recordedSize_true hs hc hz⟩
  have hw' : WorksFrom net dr.tick := fun u hu => hw u (by omega)
  obtain ⟨p, _, _, h⟩ := cut_run net ops hI (.inr hso) hg (works_noSeekFailed net _ hI (.inr hso) hw')
  exact ⟨dr, h1, p, h hw'⟩

example : ∃ dr, newDagReader exNetAll 0 exFile = .ok dr ∧ ∃ p, FlatRun [1, 2, 3, 4] 0 exReads (dr.run exNetAll exReads).1 p :=
  C20_flat_reader exNet_works exFile_opens exFile_sizes exFile_content (by decide) exReads exReads_good

example : (exReader.run exNetAll exReads).1 =
    [{ bytes := [1, 2, 3], n := 3 }, { n := 1 }, { bytes := [2, 3], n := 2 }, { n := 3 }, { bytes := [4], n := 1 },
     { err := some .eof }, { n := 4, err := some .invalidOffset }] := by decide +kernel

/-- C21: `Size()` is the length of the content, which is what a complete read delivers. -/
theorem C21_size (hw : WorksFrom net t) (ho : Opens n x) (hs : SizesTrue x) (hc : content x = some c) (hl : c.length < 2 ^ 63)
    (w : Writer) (hg : goodWriter w) :
    ∃ dr, newDagReader net t n = .ok dr ∧ dr.size.toNat = c.length ∧
      (dr.writeTo net w).1 = { bytes := c, n := dr.size.toNat, err := none } := by
  obtain ⟨dr, h1, rfl, hz, h3, h4, h5, h6⟩ := open_ok net n x t ho hw
  have hI := inv_open hc hl h3 h4 h5
  have hsz : dr.size.toNat = c.length := by
    rw [recordedSize_true hs hc hz, UInt64.toNat_ofNat', Nat.mod_eq_of_lt (by omega)]
  have hw' : WorksFrom net dr.tick := fun u hu => hw u (by omega)
  obtain ⟨p, _, _, h⟩ := cut_step net hI (.writeTo w) (.inl (by simp)) (by intro w' hw'; cases hw'; exact hg) (by simp)
  have := h hw'
  refine ⟨dr, h1, hsz, ?_⟩
  rw [hsz]
  simp only [DR.step] at this
  generalize (dr.writeTo net w).1 = r at this ⊢
  cases this
  simp

example : ∃ dr, newDagReader exNetAll 0 exFile = .ok dr ∧ dr.size.toNat = 4 ∧ (dr.writeTo exNetAll (fun _ => none)).1 = { bytes := [1, 2, 3, 4], n := dr.size.toNat, err := none } :=
  C21_size exNet_works exFile_opens exFile_sizes exFile_content (by decide) _ (fun _ => rfl)

/-- C22: after any history that left the reader at position `p`, `WriteTo` writes the content from `p`
to the end and returns its length, and the next non-empty `Read` is at EOF. -/
theorem C22_writeTo (hw : WorksFrom net t) (ho : Opens n x) (hs : SizesTrue x) (hc : content x = some c) (hl : c.length < 2 ^ 63)
    (ops : List ROp) (hg : GoodWriters ops) (w : Writer) (hgw : goodWriter w) (k : Nat) (hk : 0 < k) :
    ∃ dr, newDagReader net t n = .ok dr ∧ ∃ p, FlatRun c 0 ops (dr.run net ops).1 p ∧
      (dr.run net (ops ++ [.writeTo w, .read k])).1 =
        (dr.run net ops).1 ++ [{ bytes := c.drop p, n := (c.drop p).length }, { bytes := [], n := 0, err := some .eof }] := by
  obtain ⟨dr, h1, rfl, hz, h3, h4, h5, h6⟩ := open_ok net n x t ho hw
  have hI := inv_open hc hl h3 h4 h5
  have hso : SeekOK dr c := ⟨hs, recordedSize_true hs hc hz⟩
  have hw' : WorksFrom net dr.tick := fun u hu => hw u (by omega)
  obtain ⟨p, _, hI', h⟩ := cut_run net ops hI (.inr hso) hg (works_noSeekFailed net _ hI (.inr hso) hw')
  refine ⟨dr, h1, p, h hw', ?_⟩
  obtain ⟨_, g1, _, _, _⟩ := any_run net ops hI (.inr hso)
  generalize hd' : (dr.run net ops).2 = dr' at hI' g1
  have hw2 : WorksFrom net dr'.tick := fun u hu => hw' u (by omega)
  obtain ⟨p', _, hI2, h2⟩ := cut_step net hI' (.writeTo w) (.inl (by simp)) (by intro w' hw'; cases hw'; exact hgw) (by simp)
  obtain ⟨_, g2, _, _, _⟩ := any_step net hI' (.writeTo w) (.inl (by simp))
  have hw3 : WorksFrom net (dr'.step net (.writeTo w)).2.tick := fun u hu => hw2 u (by omega)
  have hf1 := h2 hw2
  obtain ⟨p'', _, _, h4⟩ := cut_step net hI2 (.read k) (.inl (by simp)) (by simp) (by simp)
  have hf2 := h4 hw3
  rw [run_append, hd']
  simp only [run_cons, run_nil]
  congr 1
  generalize (dr'.step net (.writeTo w)).2 = dr2 at hf2 ⊢
  generalize (dr'.step net (.writeTo w)).1 = r1 at hf1 ⊢
  generalize (dr2.step net (.read k)).1 = r2 at hf2 ⊢
  cases hf1
  cases hf2 with
  | read _ _ =>
    have e1 : c.drop (p + (c.drop p).length) = [] := List.drop_eq_nil_of_le (by simp; omega)
    have e2 : c.length < p + (c.drop p).length + k := by simp; omega
    simp only [e1, e2, if_true, List.take_nil, List.length_nil]
    rfl
  | read0 => omega

example : ∃ dr, newDagReader exNetAll 0 exFile = .ok dr ∧ ∃ p, FlatRun [1, 2, 3, 4] 0 exReads (dr.run exNetAll exReads).1 p ∧
    (dr.run exNetAll (exReads ++ [.writeTo (fun _ => none), .read 5])).1 =
      (dr.run exNetAll exReads).1 ++ [{ bytes := ([1, 2, 3, 4] : Bytes).drop p, n := (([1, 2, 3, 4] : Bytes).drop p).length }, { bytes := [], n := 0, err := some .eof }] := by
  obtain ⟨dr, h, p, h1, h2⟩ := C22_writeTo (k := 5) (w := fun _ => none) exNet_works exFile_opens exFile_sizes exFile_content (by decide) exReads exReads_good (fun _ => rfl) (by decide)
  exact ⟨dr, h, p, h1, h2⟩

/-! ### C23: blocks that are temporarily missing -/

/-- C23: under any network behaviour, a history in which no `Seek` failed for want of a block behaves
as a flat reader except that `Read` and `WriteTo` may be cut short; what they delivered is right, and
once the network works again everything continues from exactly the next byte. -/
theorem C23_resume (hn : newDagReader net t n = .ok dr) (hs : SizesTrue dr.root) (hc : content dr.root = some c) (hl : c.length < 2 ^ 63)
    (ops more : List ROp) (hg : GoodWriters ops) (hgm : GoodWriters more) (hf : NoSeekFailed ops (dr.run net ops).1) :
    ∃ p, CutRun c 0 ops (dr.run net ops).1 p ∧
      (WorksFrom net (dr.run net ops).2.tick → ∃ p', FlatRun c p more ((dr.run net ops).2.run net more).1 p') := by
  obtain ⟨_, hz, h3, h4, h5, h6⟩ := open_conv net n t dr hn
  have hI := inv_open hc hl h3 h4 h5
  have hso : SeekOK dr c := ⟨hs, recordedSize_true hs hc hz⟩
  obtain ⟨p, h1, hI', _⟩ := cut_run net ops hI (.inr hso) hg hf
  obtain ⟨_, _, g2, g3, _⟩ := any_run net ops hI (.inr hso)
  refine ⟨p, h1, fun hw => ?_⟩
  have hso' : SeekOK (dr.run net ops).2 c := by simp only [SeekOK, g2, g3]; exact hso
  obtain ⟨p', _, _, h⟩ := cut_run net more hI' (.inr hso') hgm (works_noSeekFailed net _ hI' (.inr hso') hw)
  exact ⟨p', h hw⟩

example : ∃ p, CutRun [1, 2, 3, 4] 0 [.seek 1 0, .read 3] (exReader.run (fun u _ => u != 1) [.seek 1 0, .read 3]).1 p ∧
    (WorksFrom (fun u _ => u != 1) (exReader.run (fun u _ => u != 1) [.seek 1 0, .read 3]).2.tick →
      ∃ p', FlatRun [1, 2, 3, 4] p [.read 2] ((exReader.run (fun u _ => u != 1) [.seek 1 0, .read 3]).2.run (fun u _ => u != 1) [.read 2]).1 p') :=
  C23_resume (exReader_new _) exFile_sizes exFile_content (by decide) [.seek 1 0, .read 3] [.read 2] (by intro w hw; simp at hw) (by intro w hw; simp at hw) (by
    intro i off wh r h1 h2
    match i with
    | 0 => simp only [List.getElem?_cons_zero, Option.some.injEq, ROp.seek.injEq] at h1; obtain ⟨rfl, rfl⟩ := h1; have : (exReader.run (fun u _ => u != 1) [.seek 1 0, .read 3]).1[0]? = some { n := 1 } := by decide +kernel
           rw [this] at h2; cases h2; decide
    | 1 => simp at h1
    | k + 2 => simp at h1)

/-- C23 for `Read` alone, on any file DAG: the recorded sizes play no role. -/
theorem C23_reads_resume (hn : newDagReader net t n = .ok dr) (hc : content dr.root = some c) (hl : c.length < 2 ^ 63) (ks ks' : List Nat) :
    ∃ p, CutRun c 0 (ks.map .read) (dr.run net (ks.map .read)).1 p ∧
      (WorksFrom net (dr.run net (ks.map .read)).2.tick →
        ∃ p', FlatRun c p (ks'.map .read) ((dr.run net (ks.map .read)).2.run net (ks'.map .read)).1 p') := by
  obtain ⟨_, hz, h3, h4, h5, h6⟩ := open_conv net n t dr hn
  have hI := inv_open hc hl h3 h4 h5
  have hno : ∀ (ks : List Nat) off wh, ROp.seek off wh ∉ ks.map ROp.read := by simp
  have hgw : ∀ ks : List Nat, GoodWriters (ks.map ROp.read) := by intro ks w hw; simp at hw
  have hnf : ∀ (ks : List Nat) rs, NoSeekFailed (ks.map ROp.read) rs := by
    intro ks rs i off wh r hi
    have := List.mem_of_getElem? hi
    exact absurd this (hno ks off wh)
  obtain ⟨p, h1, hI', _⟩ := cut_run net (ks.map .read) hI (.inl (hno ks)) (hgw ks) (hnf _ _)
  refine ⟨p, h1, fun hw => ?_⟩
  obtain ⟨p', _, _, h⟩ := cut_run net (ks'.map .read) hI' (.inl (hno ks')) (hgw ks') (hnf _ _)
  exact ⟨p', h hw⟩

/-- The second block is missing at the second fetch. -/
example : ∃ p, CutRun [1, 2, 3, 4] 0 [.read 3] (exReader.run (fun u _ => u != 1) [.read 3]).1 p ∧ (WorksFrom (fun u _ => u != 1) (exReader.run (fun u _ => u != 1) [.read 3]).2.tick →
      ∃ p', FlatRun [1, 2, 3, 4] p [.read 3] ((exReader.run (fun u _ => u != 1) [.read 3]).2.run (fun u _ => u != 1) [.read 3]).1 p') :=
  C23_reads_resume (exReader_new _) exFile_content (by decide) [3] [3]

example : (exReader.run (fun u _ => u != 1) [.read 3, .read 3]).1 =
    [{ bytes := [1, 2], n := 2, err := some .notFound }, { bytes := [3, 4], n := 2, err := some .eof }] := by decide +kernel

/-- The bytes delivered by reads that are cut short any number of times are, put together, the
beginning of the content: nothing lost, nothing repeated. -/
theorem C23_delivered (c : Bytes) : ∀ (ks : List Nat) (rs : List Res) (p q : Nat), CutRun c p (ks.map .read) rs q → p ≤ c.length →
    p ≤ q ∧ q ≤ c.length ∧ (rs.map Res.bytes).flatten = (c.drop p).take (q - p) := by
  intro ks
  induction ks with
  | nil => intro rs p q h hp; cases h; simp; omega
  | cons k ks ih =>
    intro rs p q h hp
    cases h with
    | cons h1 h2 =>
      rename_i p' r rs
      have hstep : ∃ m, p' = p + m ∧ m ≤ c.length - p ∧ r.bytes = (c.drop p).take m := by
        cases h1 with
        | whole h =>
          cases h with
          | read _ hk =>
            refine ⟨((c.drop p).take k).length, rfl, by simp, ?_⟩
            simp [List.take_eq_take_iff]
          | read0 e he => exact ⟨0, rfl, by omega, by simp⟩
        | read _ m hm hle => exact ⟨_, rfl, by simpa using hle, rfl⟩
      obtain ⟨m, rfl, hm, hb⟩ := hstep
      obtain ⟨g1, g2, g3⟩ := ih rs (p + m) q h2 (by omega)
      refine ⟨by omega, g2, ?_⟩
      simp only [List.map_cons, List.flatten_cons, g3, hb]
      rw [← List.drop_drop, show q - p = m + (q - (p + m)) by omega, List.take_add]

example : ∃ p, (((exReader.run (fun u _ => u != 1) [.read 3]).1).map Res.bytes).flatten = [1, 2, 3, 4].take p := by
  obtain ⟨p, h, _⟩ := C23_reads_resume (exReader_new (fun u _ => u != 1)) exFile_content (by decide) [3] []
  exact ⟨p, (C23_delivered _ [3] _ _ _ h (by decide)).2.2⟩

/-! ### C24: a `Seek` that fails -/

/-- The full statement of C24, for one DAG and one network: whatever happened before, once the network
works, a successful `Seek` puts the reader at the requested offset. -/
def SeekRecovers (net : Net) (dr : DR) (c : Bytes) : Prop :=
  ∀ (ops : List ROp) (off : Int64) (k : Nat), GoodWriters ops →
    (((dr.run net ops).2.seek net off.toInt 0).1 = { n := off.toInt }) → WorksFrom net ((dr.run net ops).2.seek net off.toInt 0).2.tick →
    ((((dr.run net ops).2.seek net off.toInt 0).2).read net k).1.bytes = (c.drop off.toInt.toNat).take k

/-! C24 is violated. In a two-block file whose second block is missing at first, `Seek(3)` fails; the
following `Seek(0)` reports success, and `Read` then delivers the second block instead of the first. -/
theorem C24_failed_seek_corrupts :
    newDagReader exNet 0 exFile = .ok exReader ∧ content exFile = some [1, 2, 3, 4] ∧
    (exReader.run exNet [.seek 3 0, .seek 0 0, .read 2]).1 =
      [{ n := 0, err := some .notFound }, { n := 0 }, { bytes := [3, 4], n := 2 }] := by decide +kernel

/-- C24 as stated is false of the code. -/
theorem C24_seek_does_not_recover : ¬ ∀ (net : Net) (n : Node) (c : Bytes) (dr : DR), newDagReader net 0 n = .ok dr → SizesTrue dr.root →
    content dr.root = some c → c.length < 2 ^ 63 → SeekRecovers net dr c := by
  intro h
  have h1 := C24_failed_seek_corrupts
  have h2 := h exNet exFile [1, 2, 3, 4] exReader h1.1 exFile_sizes h1.2.1 (by decide) [.seek 3 0] 0 2 (by intro w hw; simp at hw)
    (by decide +kernel) (by
      have : ((exReader.run exNet [.seek 3 0]).2.seek exNet (Int64.toInt 0) 0).2.tick = 1 := by decide +kernel
      rw [this]; intro u hu x
      have : u ≠ 0 := by omega
      simp [exNet, this])
  have h3 : (((exReader.run exNet [.seek 3 0]).2.seek exNet (Int64.toInt 0) 0).2.read exNet 2).1.bytes = [3, 4] := by decide +kernel
  rw [h3] at h2
  exact absurd h2 (by decide)

/-- C24, the part that holds (missing: the case that the requested offset is the one the reader
already reports). Whatever happened before — missing blocks, failed seeks, failing writers — a
successful `Seek` to an offset other than the currently reported one repairs the reader: from then on
it is a flat reader at that offset. -/
theorem C24_seek_recovers_partial (hn : newDagReader net t n = .ok dr) (hs : SizesTrue dr.root) (hc : content dr.root = some c)
    (hl : c.length < 2 ^ 63) (ops : List ROp) (off : Int64) (whence : Int) (q tgt : Nat)
    (hq : ((dr.run net ops).2.seek net 0 1).1.n = q) (ht : seekTarget c.length q off whence = some (tgt : Int)) (hne : tgt ≠ q)
    (hok : ((dr.run net ops).2.seek net off.toInt whence).1.err = none) :
    ((dr.run net ops).2.seek net off.toInt whence).1 = { n := tgt } ∧
    ∀ more, GoodWriters more → WorksFrom net ((dr.run net ops).2.seek net off.toInt whence).2.tick →
      ∃ p, FlatRun c tgt more ((((dr.run net ops).2.seek net off.toInt whence).2).run net more).1 p := by
  obtain ⟨_, hz, h3, h4, h5, h6⟩ := open_conv net n t dr hn
  have hI := inv_open hc hl h3 h4 h5
  have hso : SeekOK dr c := ⟨hs, recordedSize_true hs hc hz⟩
  obtain ⟨⟨p', q', hI'⟩, _, g2, g3, _⟩ := any_run net ops hI (.inr hso)
  have hso' : SeekOK (dr.run net ops).2 c := by simp only [SeekOK, g2, g3]; exact hso
  generalize (dr.run net ops).2 = d1 at *
  have hqq : q' = q := by
    simp only [DR.seek] at hq
    simp at hq
    have := hI'.off
    omega
  subst hqq
  rcases seek_eq net hI' hso'.2 off whence with ⟨tt, e1, e2, e3⟩ | ⟨e1, _⟩
  · rw [ht] at e1; cases e1
    rw [e3] at hok ⊢
    obtain ⟨_, k1, k2, k3, k4⟩ := seekStart_spec net hI' hso'.1 tgt e2
    rcases k1 (by omega) with ⟨e4, ⟨e5, _⟩ | ⟨_, e5⟩⟩ | ⟨e4, _⟩
    · omega
    · refine ⟨e4, fun more hgm hw => ?_⟩
      have hI2 : Inv (d1.seekStart net tgt).2 c tgt tgt := by simpa using e5
      have hso2 : SeekOK (d1.seekStart net tgt).2 c := by simp only [SeekOK, k3, k4]; exact hso'
      obtain ⟨p, _, _, h⟩ := cut_run net more hI2 (.inr hso2) hgm (works_noSeekFailed net _ hI2 (.inr hso2) hw)
      exact ⟨p, h hw⟩
    · rw [e4] at hok; simp at hok
  · rw [ht] at e1; cases e1

/-- A failed `Seek` repaired by a `Seek` elsewhere. -/
example : ((exReader.run exNet [.seek 3 0]).2.seek exNet 1 0).1 = { n := 1 } ∧
    ∀ more, GoodWriters more → WorksFrom exNet ((exReader.run exNet [.seek 3 0]).2.seek exNet 1 0).2.tick →
      ∃ p, FlatRun [1, 2, 3, 4] 1 more (((exReader.run exNet [.seek 3 0]).2.seek exNet 1 0).2.run exNet more).1 p :=
  C24_seek_recovers_partial (exReader_new exNet) exFile_sizes exFile_content (by decide) [.seek 3 0] 1 0 0 1 (by decide +kernel) (by decide +kernel) (by decide) (by decide +kernel)

example : (exReader.run exNet [.seek 3 0, .seek 1 0, .read 2]).1 =
    [{ n := 0, err := some .notFound }, { n := 1 }, { bytes := [2, 3], n := 2 }] := by decide +kernel

/-! ### C59: a writer that fails in `WriteTo` -/

/-- C59 is violated: when the writer fails, the reader has consumed the bytes the writer took, but
still reports the old offset, so that `Seek` to that offset does nothing and bytes are skipped. -/
theorem C59_failed_writer_skews_offset :
    (exReader.run (fun _ _ => true) [.writeTo (fun _ => some 1), .seek 0 0, .read 2]).1 =
      [{ bytes := [1], n := 1, err := some .writeFailed }, { n := 0 }, { bytes := [2, 3], n := 2 }] := by decide +kernel

/-- C59, the part that holds (missing: the reported offset): when a writer fails, the bytes it accepted
are the next bytes of the content, and reading continues right after them. -/
theorem C59_writer_failure_partial (hn : newDagReader net t n = .ok dr) (hc : content dr.root = some c) (hl : c.length < 2 ^ 63)
    (w : Writer) (k : Nat) (hw : WorksFrom net (dr.writeTo net w).2.tick) :
    ∃ m, m ≤ c.length ∧ (dr.writeTo net w).1.bytes = c.take m ∧ (dr.writeTo net w).1.n = m ∧
      ((dr.writeTo net w).2.read net k).1.bytes = (c.drop m).take k := by
  obtain ⟨_, hz, h3, h4, h5, h6⟩ := open_conv net n t dr hn
  have hI := inv_open hc hl h3 h4 h5
  obtain ⟨⟨m, m', e1, e2, e3, e4, e5, e6⟩, _⟩ := writeTo_spec net hI w
  simp only [List.drop_zero] at e1 e2
  refine ⟨m, by simp at e2; omega, e1, e3, ?_⟩
  obtain ⟨⟨j, j1, j2, j3, j4, j5, j6⟩, _⟩ := read_spec net e5 k
  simp only [Nat.zero_add] at *
  rw [j2]
  rcases j6 with ⟨_, rfl⟩ | ⟨_, _, j7⟩ | ⟨_, _, j7⟩
  · rfl
  · rw [List.take_of_length_le (by simp; omega), List.take_of_length_le (by simp; omega)]
  · exact (j7.not_works hw).elim

/-- A writer that takes one byte and fails. -/
example : ∃ m, m ≤ 4 ∧ (exReader.writeTo exNetAll (fun _ => some 1)).1.bytes = [1, 2, 3, 4].take m ∧ (exReader.writeTo exNetAll (fun _ => some 1)).1.n = m ∧
    ((exReader.writeTo exNetAll (fun _ => some 1)).2.read exNetAll 2).1.bytes = ([1, 2, 3, 4].drop m).take 2 :=
  C59_writer_failure_partial (exReader_new exNetAll) exFile_content (by decide) (fun _ => some 1) 2 (fun _ _ _ => rfl)

/-! ### C60: no hang -/

/-- C60: on any node that can be opened — its DAG may be malformed in any way, recorded sizes may be
wrong, leaves may not decode — every call of every history returns, under every network behaviour. -/
theorem C60_terminates (hn : newDagReader net t n = .ok dr) (ops : List ROp) :
    ∀ r ∈ (dr.run net ops).1, r.err ≠ some .outOfFuel := by
  obtain ⟨_, _, h3, _⟩ := open_conv net n t dr hn
  exact (sane_run net ops ⟨by rw [h3]; trivial, by simp [h3, todo]⟩).2

end

end Unixfs.Props
