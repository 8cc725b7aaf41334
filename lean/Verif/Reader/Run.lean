import Verif.Reader.Inv

/-! # Helper lemmas: opening a reader and histories of calls

The definitions in this file belong to proofs; they model no code.
-/

namespace Unixfs.Reader
open Unixfs Unixfs.Spec

theorem i64_lt (x : Int) : i64 x < 2 ^ 63 := by
  have := Int.bmod_lt (x := x) (m := 2 ^ 64) (by omega)
  simpa [i64] using this

theorem i64_add_left (x y : Int) : i64 (i64 x + y) = i64 (x + y) := by simp [i64]

theorem newDagReader_raw (net : Net) (t : Nat) (d : Bytes) (b : Builder) : newDagReader net t (.raw d b) =
    .ok { root := .raw d b, size := UInt64.ofNat d.length, path := [], cur := none, offset := 0, tick := t } := by
  simp [newDagReader]

theorem type_of {m : Pb.Data} {t : UInt32} (h : m.typ = some t) : (FSNode.mk m).type = t := by
  simp [FSNode.type, Pb.Data.getType, h]

theorem unmarshal_typ {d : Bytes} {m : Pb.Data} (h : Pb.Data.unmarshal d = .ok m) : ∃ t, m.typ = some t :=
  Option.isSome_iff_exists.mp (Pb.Data.unmarshal_wf h).typ

theorem isFileMsg_type {m : Pb.Data} (h : m.typ.isSome) : IsFileMsg m ↔ (FSNode.mk m).type = TFile ∨ (FSNode.mk m).type = TRaw := by
  obtain ⟨t, ht⟩ := Option.isSome_iff_exists.mp h
  simp [IsFileMsg, type_of ht, ht]

/-- Opening a node that stands for file `x`, when the network works. -/
theorem open_ok (net : Net) : ∀ (n x : Node) (t : Nat), Opens n x → WorksFrom net t →
    ∃ dr, newDagReader net t n = .ok dr ∧ dr.root = x ∧ RecordedSize x dr.size ∧ dr.path = [] ∧ dr.cur = none ∧ dr.offset = 0 ∧ t ≤ dr.tick := by
  intro n x t h hw
  induction h generalizing t with
  | raw d b => exact ⟨_, newDagReader_raw net t d b, rfl, rfl, rfl, rfl, rfl, Nat.le_refl _⟩
  | file d ls b m hm hf =>
    have hty := (isFileMsg_type (Pb.Data.unmarshal_wf hm).typ).mp hf
    refine ⟨{ root := .proto d ls b, size := (FSNode.mk m).fileSize, path := [], cur := none, offset := 0, tick := t }, by
      simp only [newDagReader, FSNode.fromBytes, hm, hty, if_true], rfl, ⟨m, hm, ?_⟩, rfl, rfl, rfl, Nat.le_refl _⟩
    simp only [FSNode.fileSize, pbSize]
    have hty' : m.getType = TFile ∨ m.getType = TRaw := hty
    rcases hty' with h | h <;> simp [h, TDirectory, THAMTShard, TFile, TRaw, Pb.Data.getFilesize]
  | metadata d l ls b m x hm ht hp h ih =>
    obtain ⟨nm, ts, ch⟩ := l
    obtain ⟨dr, h1, h2, h3, h4, h5, h6, h7⟩ := ih (t + 1) (fun u hu => hw u (by omega))
    refine ⟨dr, ?_, h2, h3, h4, h5, h6, by omega⟩
    simp only [Link.target] at hp h1
    simp only [newDagReader, FSNode.fromBytes, hm, type_of ht]
    simp only [TMetadata, TFile, TRaw, TDirectory, THAMTShard]
    simp [newDagReaderMeta, hw t (Nat.le_refl _) ch, hp, h1]

/-- Conversely, whatever `NewDagReader` accepts stands for a file. -/
theorem open_conv (net : Net) : ∀ (n : Node) (t : Nat) (dr : DR), newDagReader net t n = .ok dr →
    Opens n dr.root ∧ RecordedSize dr.root dr.size ∧ dr.path = [] ∧ dr.cur = none ∧ dr.offset = 0 ∧ t ≤ dr.tick
  | .raw d b, t, dr, h => by
    rw [newDagReader_raw] at h; cases h; exact ⟨.raw _ _, rfl, rfl, rfl, rfl, Nat.le_refl _⟩
  | .other d, t, dr, h => by simp [newDagReader] at h
  | .proto d ls b, t, dr, h => by
    simp only [newDagReader, FSNode.fromBytes] at h
    cases hm : Pb.Data.unmarshal d with
    | error e => simp [hm] at h
    | ok m =>
      simp only [hm] at h
      have hwf := (Pb.Data.unmarshal_wf hm).typ
      by_cases hty : (FSNode.mk m).type = TFile ∨ (FSNode.mk m).type = TRaw
      · simp only [hty, if_true] at h
        cases h
        refine ⟨.file d ls b m hm ((isFileMsg_type hwf).mpr hty), ⟨m, hm, ?_⟩, rfl, rfl, rfl, Nat.le_refl _⟩
        simp only [FSNode.fileSize, pbSize]
        have hty' : m.getType = TFile ∨ m.getType = TRaw := hty
        rcases hty' with h | h <;> simp [h, TDirectory, THAMTShard, TFile, TRaw, Pb.Data.getFilesize]
      · simp only [hty, if_false] at h
        by_cases hd : (FSNode.mk m).type = TDirectory ∨ (FSNode.mk m).type = THAMTShard
        · simp [hd] at h
        · simp only [hd, if_false] at h
          by_cases hmeta : (FSNode.mk m).type = TMetadata
          · simp only [hmeta, if_true] at h
            match ls, h with
            | [], h => simp [newDagReaderMeta] at h
            | .mk nm ts ch :: ls, h =>
              simp only [newDagReaderMeta] at h
              by_cases hn : net t ch = true
              · simp only [hn, if_true] at h
                by_cases hp : ch.isProto = true
                · simp only [hp, if_true] at h
                  obtain ⟨h1, h2, h3, h4, h5, h6⟩ := open_conv net ch (t + 1) dr h
                  refine ⟨.metadata d (.mk nm ts ch) ls b m _ hm ?_ hp h1, h2, h3, h4, h5, by omega⟩
                  obtain ⟨ty, hty⟩ := Option.isSome_iff_exists.mp hwf
                  rw [type_of hty] at hmeta; rw [hty, hmeta]
                · simp [hp] at h
              · simp [hn] at h
          · simp only [hmeta, if_false] at h
            by_cases hsy : (FSNode.mk m).type = TSymlink <;> simp [hsy] at h

theorem inv_open {dr : DR} {c : Bytes} (hc : content dr.root = some c) (hl : c.length < 2 ^ 63) (h1 : dr.path = []) (h2 : dr.cur = none)
    (h3 : dr.offset = 0) : Inv dr c 0 0 :=
  ⟨hc, hl, ⟨c, by rw [h1]; exact hc, by simp [h2]⟩, by simp [h3], Nat.le_refl _, by simp, by simp [h1, todo]⟩

theorem recordedSize_true {x : Node} {c : Bytes} {s : UInt64} (hs : SizesTrue x) (hc : content x = some c) (hr : RecordedSize x s) :
    s = UInt64.ofNat c.length := by
  match x with
  | .raw d _ => simp only [content, Option.some.injEq] at hc; rw [← hc]; exact hr
  | .other _ => exact hr.elim
  | .proto d ls b =>
    obtain ⟨m, hm, rfl⟩ := hr
    simp only [SizesTrue] at hs
    obtain ⟨m', hm', -, -, -, hf, -⟩ := hs
    rw [hm] at hm'; cases hm'
    rw [hf, contentLen_eq hc]

/-- What a call may need to know: `Seek` relies on the recorded sizes. -/
def SeekOK (dr : DR) (c : Bytes) : Prop := SizesTrue dr.root ∧ dr.size = UInt64.ofNat c.length

theorem seek_eq (net : Net) {dr : DR} {c : Bytes} {p q : Nat} (hI : Inv dr c p q) (hz : dr.size = UInt64.ofNat c.length) (off : Int64) (whence : Int) :
    (∃ t : Int, seekTarget c.length q off whence = some t ∧ t < 2 ^ 63 ∧ dr.seek net off.toInt whence = dr.seekStart net t) ∨
    (seekTarget c.length q off whence = none ∧ dr.seek net off.toInt whence = ({ n := 0, err := some .badWhence }, dr)) := by
  have h1 := hI.len
  unfold DR.seek seekTarget
  by_cases h0 : whence = 0
  · left; simp only [h0, if_true]
    exact ⟨_, rfl, by have := Int64.toInt_lt off; simpa using this, rfl⟩
  · simp only [h0, if_false]
    by_cases h1 : whence = 1
    · left; simp only [h1, if_true]
      refine ⟨_, rfl, i64_lt _, ?_⟩
      by_cases ho : off.toInt = 0
      · simp only [ho, if_true, Int.add_zero]
        have hq := hI.q63
        rw [i64_id (by omega) (by omega)]
        simp [DR.seekStart, hI.off]
      · simp only [ho, if_false, hI.off]
    · simp only [h1, if_false]
      by_cases h2 : whence = 2
      · left; simp only [h2, if_true]
        refine ⟨_, rfl, i64_lt _, ?_⟩
        rw [hz, UInt64.toNat_ofNat', Nat.mod_eq_of_lt (by omega), i64_add_left]
      · right; simp [h2]

/-- One call, with every possible failure. `p`/`p'`: where bytes come from; `q`/`q'`: what is reported. -/
theorem any_step (net : Net) {dr : DR} {c : Bytes} {p q : Nat} (hI : Inv dr c p q) (op : ROp)
    (hs : (∀ off wh, op ≠ .seek off wh) ∨ SeekOK dr c) :
    (∃ p' q', Inv (dr.step net op).2 c p' q') ∧ dr.tick ≤ (dr.step net op).2.tick ∧ (dr.step net op).2.size = dr.size ∧
      (dr.step net op).2.root = dr.root ∧ (dr.step net op).1.err ≠ some .outOfFuel := by
  cases op with
  | read k =>
    obtain ⟨⟨m, _, _, _, _, hI', hc⟩, h1, h2, h3⟩ := read_spec net hI k
    refine ⟨⟨_, _, hI'⟩, h1, h2, h3, ?_⟩
    show (dr.read net k).1.err ≠ _
    rcases hc with h | h | h <;> rw [h.1] <;> simp
  | writeTo w =>
    obtain ⟨⟨m, _, _, _, _, _, hI', hc⟩, h1, h2, h3⟩ := writeTo_spec net hI w
    refine ⟨⟨_, _, hI'⟩, h1, h2, h3, ?_⟩
    show (dr.writeTo net w).1.err ≠ _
    rcases hc with h | h | h <;> rw [h.1] <;> simp
  | seek off whence =>
    rcases hs with hs | hs
    · exact absurd rfl (hs off whence)
    simp only [DR.step]
    rcases seek_eq net hI hs.2 off whence with ⟨t, _, htl, he⟩ | ⟨_, he⟩
    · rw [he]
      obtain ⟨hn, hok, h1, h2, h3⟩ := seekStart_spec net hI hs.1 t htl
      by_cases h0 : t < 0
      · obtain ⟨e1, e2⟩ := hn h0
        exact ⟨⟨p, q, by rw [e2]; exact hI⟩, h1, h2, h3, by rw [e1]; simp⟩
      · rcases hok (by omega) with ⟨e1, ⟨_, e2⟩ | ⟨_, e2⟩⟩ | ⟨e1, _, _, p', _, e2⟩
        · exact ⟨⟨p, q, by rw [e2]; exact hI⟩, h1, h2, h3, by rw [e1]; simp⟩
        · exact ⟨⟨_, _, e2⟩, h1, h2, h3, by rw [e1]; simp⟩
        · exact ⟨⟨_, _, e2⟩, h1, h2, h3, by rw [e1]; simp⟩
    · rw [he]; exact ⟨⟨p, q, hI⟩, Nat.le_refl _, rfl, rfl, by simp⟩

/-- One call on a reader that reports its true position: it behaves as the flat reader, possibly
cut short, unless a `Seek` misses a block or a writer fails. -/
theorem cut_step (net : Net) {dr : DR} {c : Bytes} {p : Nat} (hI : Inv dr c p p) (op : ROp)
    (hs : (∀ off wh, op ≠ .seek off wh) ∨ SeekOK dr c) (hw : ∀ w, op = .writeTo w → goodWriter w)
    (hf : ∀ off wh, op = .seek off wh → (dr.step net op).1.err ≠ some .notFound) :
    ∃ p', CutStep c p op (dr.step net op).1 p' ∧ Inv (dr.step net op).2 c p' p' ∧
      (WorksFrom net dr.tick → FlatStep c p op (dr.step net op).1 p') := by
  cases op with
  | read k =>
    obtain ⟨⟨m, hmk, hb, hbl, hn, hI', hc⟩, h1, h2, h3⟩ := read_spec net hI k
    have hm : m ≤ c.length - p := by simp at hbl; omega
    have hr : (dr.read net k).1 = { bytes := (c.drop p).take m, n := m, err := (dr.read net k).1.err } := by
      cases hx : (dr.read net k).1; simp_all
    refine ⟨p + m, ?_⟩
    simp only [DR.step]
    rw [hr]
    have flat : (dr.read net k).1.err ≠ some .notFound → FlatStep c p (.read k) { bytes := (c.drop p).take m, n := m, err := (dr.read net k).1.err } (p + m) := by
      intro hne
      rcases Nat.eq_zero_or_pos k with hk | hk
      · subst hk
        have : m = 0 := by omega
        subst this
        simp only [List.take_zero, Nat.add_zero]
        apply FlatStep.read0
        rcases hc with ⟨h, _⟩ | ⟨h, _, hh⟩ | ⟨h, _⟩
        · exact .inl h
        · exact .inr ⟨h, by simpa using hh⟩
        · exact absurd h hne
      · have key : (c.drop p).take m = (c.drop p).take k ∧ (dr.read net k).1.err = if c.length < p + k then some .eof else none := by
          rcases hc with ⟨h, hh⟩ | ⟨h, hh, hh'⟩ | ⟨h, _⟩
          · subst hh
            refine ⟨rfl, ?_⟩
            rw [h, if_neg]; omega
          · refine ⟨?_, ?_⟩
            · rw [List.take_of_length_le (by simp; omega), List.take_of_length_le (by simp; omega)]
            · rw [h, if_pos]; omega
          · exact absurd h hne
        have hf := FlatStep.read (c := c) p k hk
        rw [← key.1, ← key.2, hbl] at hf
        exact hf
    refine ⟨?_, hI', ?_⟩
    · rcases hc with ⟨h, _⟩ | ⟨h, _⟩ | ⟨h, hh, _⟩
      · exact .whole (flat (by rw [h]; simp))
      · exact .whole (flat (by rw [h]; simp))
      · rw [h]; exact .read p k m (by omega) (by simpa using hm)
    · intro hwk
      apply flat
      rcases hc with ⟨h, _⟩ | ⟨h, _⟩ | ⟨_, _, hh⟩
      · rw [h]; simp
      · rw [h]; simp
      · exact (hh.not_works hwk).elim
  | writeTo w =>
    obtain ⟨⟨m, m', hb, hbl, hn, hmm, hI', hc⟩, h1, h2, h3⟩ := writeTo_spec net hI w
    have hm : m ≤ c.length - p := by simp at hbl; omega
    have hr : (dr.writeTo net w).1 = { bytes := (c.drop p).take m, n := m, err := (dr.writeTo net w).1.err } := by
      cases hx : (dr.writeTo net w).1; simp_all
    refine ⟨p + m, ?_⟩
    simp only [DR.step]
    rw [hr]
    rcases hc with ⟨h, hh, hm'⟩ | ⟨h, hm', hh⟩ | ⟨_, hh⟩
    · have hfl : FlatStep c p (.writeTo w) { bytes := (c.drop p).take m, n := m, err := (dr.writeTo net w).1.err } (p + m) := by
        have hf := FlatStep.writeTo (c := c) p w
        rw [h, hh, List.take_length]; exact hf
      rw [hm'] at hI'
      exact ⟨.whole hfl, hI', fun _ => hfl⟩
    · rw [hm'] at hI'
      refine ⟨by rw [h]; exact .writeTo p w m (by simpa using hm), hI', fun hwk => (hh.not_works hwk).elim⟩
    · exact absurd (hw w rfl) hh
  | seek off whence =>
    rcases hs with hs | hs
    · exact absurd rfl (hs off whence)
    have hf := hf off whence rfl
    simp only [DR.step] at hf ⊢
    rcases seek_eq net hI hs.2 off whence with ⟨t, ht, htl, he⟩ | ⟨ht, he⟩
    · rw [he] at hf ⊢
      obtain ⟨hn, hok, h1, h2, h3⟩ := seekStart_spec net hI hs.1 t htl
      by_cases h0 : t < 0
      · obtain ⟨e1, e2⟩ := hn h0
        have hfl : FlatStep c p (.seek off whence) (dr.seekStart net t).1 p := by rw [e1]; exact .seekNeg p off whence t ht h0
        exact ⟨p, .whole hfl, by rw [e2]; exact hI, fun _ => hfl⟩
      · obtain ⟨tn, rfl⟩ : ∃ tn : Nat, t = tn := ⟨t.toNat, by omega⟩
        rcases hok (by omega) with ⟨e1, e2⟩ | ⟨e1, _⟩
        · have hfl : FlatStep c p (.seek off whence) (dr.seekStart net tn).1 tn := by rw [e1]; exact .seek p off whence tn ht
          refine ⟨tn, .whole hfl, ?_, fun _ => hfl⟩
          rcases e2 with ⟨e3, e2⟩ | ⟨_, e2⟩
          · have : tn = p := by omega
            rw [e2, this]; exact hI
          · simpa using e2
        · rw [e1] at hf; simp at hf
    · rw [he]
      exact ⟨p, .whole (.seekBad p off whence ht), hI, fun _ => .seekBad p off whence ht⟩

theorem run_nil (net : Net) (dr : DR) : dr.run net [] = ([], dr) := rfl
theorem run_cons (net : Net) (dr : DR) (op : ROp) (ops : List ROp) : dr.run net (op :: ops) =
    ((dr.step net op).1 :: ((dr.step net op).2.run net ops).1, ((dr.step net op).2.run net ops).2) := rfl

theorem run_append (net : Net) (dr : DR) (a b : List ROp) : dr.run net (a ++ b) =
    ((dr.run net a).1 ++ ((dr.run net a).2.run net b).1, ((dr.run net a).2.run net b).2) := by
  induction a generalizing dr with
  | nil => simp [run_nil]
  | cons op a ih => simp [run_cons, ih]

/-- Any history whatsoever keeps some invariant and never exhausts the loop budget. -/
theorem any_run (net : Net) : ∀ (ops : List ROp) {dr : DR} {c : Bytes} {p q : Nat}, Inv dr c p q →
    ((∀ off wh, .seek off wh ∉ ops) ∨ SeekOK dr c) →
    (∃ p' q', Inv (dr.run net ops).2 c p' q') ∧ dr.tick ≤ (dr.run net ops).2.tick ∧ (dr.run net ops).2.size = dr.size ∧
      (dr.run net ops).2.root = dr.root ∧ ∀ r ∈ (dr.run net ops).1, r.err ≠ some .outOfFuel := by
  intro ops
  induction ops with
  | nil => intro dr c p q hI _; exact ⟨⟨p, q, hI⟩, Nat.le_refl _, rfl, rfl, by simp [run_nil]⟩
  | cons op ops ih =>
    intro dr c p q hI hs
    obtain ⟨⟨p', q', hI'⟩, h1, h2, h3, h4⟩ := any_step net hI op (hs.imp (fun h off wh he => h off wh (by simp [he])) id)
    obtain ⟨g0, g1, g2, g3, g4⟩ := ih hI' (hs.imp (fun h off wh he => h off wh (by simp [he])) (by simp only [SeekOK, h2, h3]; exact id))
    rw [run_cons]
    refine ⟨g0, by simp only; omega, by simp only; rw [g2, h2], by simp only; rw [g3, h3], ?_⟩
    intro r hr
    rcases List.mem_cons.mp hr with rfl | hr
    · exact h4
    · exact g4 r hr

theorem cut_run (net : Net) : ∀ (ops : List ROp) {dr : DR} {c : Bytes} {p : Nat}, Inv dr c p p →
    ((∀ off wh, .seek off wh ∉ ops) ∨ SeekOK dr c) → GoodWriters ops → NoSeekFailed ops (dr.run net ops).1 →
    ∃ p', CutRun c p ops (dr.run net ops).1 p' ∧ Inv (dr.run net ops).2 c p' p' ∧ (WorksFrom net dr.tick → FlatRun c p ops (dr.run net ops).1 p') := by
  intro ops
  induction ops with
  | nil => intro dr c p hI _ _ _; exact ⟨p, .nil p, hI, fun _ => .nil p⟩
  | cons op ops ih =>
    intro dr c p hI hs hg hf
    have hs' := hs.imp (fun h off wh (he : op = .seek off wh) => h off wh (by simp [he])) id
    obtain ⟨p', hc, hI', hfl⟩ := cut_step net hI op hs' (fun w hw => hg w (by simp [hw])) (by
      intro off wh he
      exact hf 0 off wh _ (by simp [he]) (by simp [run_cons]))
    obtain ⟨_, h1, h2, h3, _⟩ := any_step net hI op hs'
    obtain ⟨p'', g1, g2, g3⟩ := ih hI' (hs.imp (fun h off wh he => h off wh (by simp [he])) (by simp only [SeekOK, h2, h3]; exact id))
      (fun w hw => hg w (by simp [hw])) (by
        intro i off wh r hi hr
        exact hf (i + 1) off wh r (by simpa using hi) (by simpa [run_cons] using hr))
    rw [run_cons]
    exact ⟨p'', .cons hc g1, g2, fun hw => .cons (hfl hw) (g3 (fun u hu => hw u (by omega)))⟩

/-- With a working network no `Seek` fails for want of a block. -/
theorem works_noSeekFailed (net : Net) : ∀ (ops : List ROp) {dr : DR} {c : Bytes} {p q : Nat}, Inv dr c p q →
    ((∀ off wh, .seek off wh ∉ ops) ∨ SeekOK dr c) → WorksFrom net dr.tick → NoSeekFailed ops (dr.run net ops).1 := by
  intro ops
  induction ops with
  | nil => intro dr c p q _ _ _ i off wh r hi; simp at hi
  | cons op ops ih =>
    intro dr c p q hI hs hw
    have hs' := hs.imp (fun h off wh (he : op = .seek off wh) => h off wh (by simp [he])) id
    obtain ⟨⟨p', q', hI'⟩, h1, h2, h3, h4⟩ := any_step net hI op hs'
    have := ih hI' (hs.imp (fun h off wh he => h off wh (by simp [he])) (by simp only [SeekOK, h2, h3]; exact id)) (fun u hu => hw u (by omega))
    intro i off wh r hi hr
    cases i with
    | succ i => exact this i off wh r (by simpa using hi) (by simpa [run_cons] using hr)
    | zero =>
      simp only [List.getElem?_cons_zero, Option.some.injEq] at hi
      subst hi
      simp only [run_cons, List.getElem?_cons_zero, Option.some.injEq] at hr
      subst hr
      rcases hs with hs | hs
      · exact absurd (List.mem_cons_self) (hs off wh)
      simp only [DR.step]
      rcases seek_eq net hI hs.2 off wh with ⟨t, ht, htl, he⟩ | ⟨ht, he⟩
      · rw [he]
        obtain ⟨hn, hok, _⟩ := seekStart_spec net hI hs.1 t htl
        by_cases h0 : t < 0
        · rw [(hn h0).1]; simp
        · rcases hok (by omega) with ⟨e1, _⟩ | ⟨_, e2, _⟩
          · rw [e1]; simp
          · exact (e2.not_works hw).elim
      · rw [he]; simp

end Unixfs.Reader
