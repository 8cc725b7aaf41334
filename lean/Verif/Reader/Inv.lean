import Verif.Reader.WriteSeek
import Verif.Spec.Reader

/-! # The reader invariant and its preservation

The definitions in this file belong to proofs; they model no code.
-/

namespace Unixfs.Reader
open Unixfs Unixfs.Spec

/-- The reader delivers `c` from position `p` on and reports position `q`. -/
structure Inv (dr : DR) (c : Bytes) (p q : Nat) : Prop where
  mk ::
  content : content dr.root = some c
  len : c.length < 2 ^ 63
  stream : ∃ b, Rem dr.root dr.path b ∧ dr.cur.getD [] ++ b = c.drop p
  off : dr.offset = q
  qp : q ≤ p
  q63 : q < 2 ^ 63
  todo : todo dr.root dr.path ≤ dr.root.count

/-- Only failures of the network after the reader's clock matter. -/
def NetFails (net : Net) (t : Nat) : Prop := ∃ u x, t ≤ u ∧ net u x = false

theorem NetFails.not_works {net : Net} {t : Nat} (h : NetFails net t) (hw : WorksFrom net t) : False := by
  obtain ⟨u, x, hu, hx⟩ := h
  rw [hw u hu x] at hx; cases hx

structure ReadOut (net : Net) (dr : DR) (c : Bytes) (p q k : Nat) (r : Res) (dr' : DR) : Prop where
  mk ::
  ex : ∃ m, m ≤ k ∧ r.bytes = (c.drop p).take m ∧ ((c.drop p).take m).length = m ∧ r.n = m ∧ Inv dr' c (p + m) (q + m) ∧
    (r.err = none ∧ m = k ∨ r.err = some .eof ∧ (m < k ∨ k = 0) ∧ c.length ≤ p + m ∨
     r.err = some .notFound ∧ (m < k ∨ k = 0) ∧ NetFails net dr.tick)
  tick_le : dr.tick ≤ dr'.tick
  size : dr'.size = dr.size
  root : dr'.root = dr.root

theorem drop_append_eq {c a b : Bytes} {p : Nat} (h : c.drop p = a ++ b) : c.drop (p + a.length) = b := by
  rw [← List.drop_drop, h, List.drop_left]

theorem take_of_append {c a b : Bytes} {p : Nat} (h : c.drop p = a ++ b) : (c.drop p).take a.length = a := by
  rw [h, List.take_left]

theorem Inv.advance {dr dr' : DR} {c : Bytes} {p q : Nat} (hI : Inv dr c p q) (hr : dr'.root = dr.root) {got rest : Bytes}
    (hg : c.drop p = got ++ rest) (hs : ∃ b, Rem dr.root dr'.path b ∧ dr'.cur.getD [] ++ b = rest)
    (m : Nat) (hm : m ≤ got.length) (ho : dr'.offset = dr.offset + m)
    (ht : Reader.todo dr.root dr'.path ≤ Reader.todo dr.root dr.path) :
    Inv dr' c (p + got.length) (q + m) := by
  have hl := congrArg List.length hg
  simp only [List.length_drop, List.length_append] at hl
  have h1 := hI.len; have h2 := hI.qp; have h3 := hI.q63
  refine ⟨by rw [hr]; exact hI.content, hI.len, ?_, ?_, by omega, by omega, by rw [hr]; exact Nat.le_trans ht hI.todo⟩
  · obtain ⟨b, hb1, hb2⟩ := hs
    exact ⟨b, by rw [hr]; exact hb1, by rw [hb2, drop_append_eq hg]⟩
  · rw [ho, hI.off]; push_cast; rfl

theorem read_spec (net : Net) {dr : DR} {c : Bytes} {p q : Nat} (hI : Inv dr c p q) (k : Nat) :
    ReadOut net dr c p q k (dr.read net k).1 (dr.read net k).2 := by
  obtain ⟨b, hb, hcb⟩ := hI.stream
  have h1 := hI.len; have h2 := hI.qp; have h3 := hI.q63
  have hfuel : 2 * todo dr.root dr.path + 1 ≤ walkFuel dr.root := by have := hI.todo; simp only [walkFuel]; omega
  have hdl := congrArg List.length hcb
  simp only [List.length_drop, List.length_append] at hdl
  -- the iteration, after `g0` has already been delivered from the buffer
  have iter : ∀ (s : RS) (g0 : Bytes), s.cur = none → c.drop p = g0 ++ b → s.offset = dr.offset + g0.length → s.out = g0 → s.space + g0.length = k →
      (s.space ≠ 0 ∨ k = 0) →
      ∀ r w, iterate net dr.root readVisitor (walkFuel dr.root) { path := dr.path, tick := dr.tick, s := s } = (r, w) →
      ReadOut net dr c p q k
        { bytes := w.s.out, n := w.s.out.length, err := match r with
           | .paused => none
           | .endOfDag => some .eof
           | .err e => some e }
        { dr with path := w.path, tick := w.tick, cur := w.s.cur, offset := w.s.offset } := by
    intro s g0 hsc hg0 hso hsout hsp hk r w hit
    have hl0 := congrArg List.length hg0
    simp only [List.length_drop, List.length_append] at hl0
    obtain ⟨r', w', hi, hR⟩ := iterate_read net dr.root (walkFuel dr.root) { path := dr.path, tick := dr.tick, s := s } b (q + g0.length) hb hsc hfuel
      (by show s.offset = _; rw [hso, hI.off]; push_cast; rfl) (by omega)
    rw [hit] at hi
    obtain ⟨rfl, rfl⟩ := Prod.mk.inj hi
    obtain ⟨got, b', e1, e2, e3, e4, e5, e6⟩ := hR.ex
    simp only at e3 e4 e5
    have hall : c.drop p = (g0 ++ got) ++ (w.s.cur.getD [] ++ b') := by rw [hg0, e1]; simp
    have hout : w.s.out = g0 ++ got := by rw [e3, hsout]
    have hal := congrArg List.length hall
    simp only [List.length_drop, List.length_append] at hal
    refine ⟨⟨(g0 ++ got).length, by simp; omega, ?_, ?_, ?_, ?_, ?_⟩, hR.tick_le, rfl, rfl⟩
    · show w.s.out = _; rw [take_of_append hall, hout]
    · rw [take_of_append hall]
    · simp [hout]
    · refine hI.advance (dr' := { dr with path := w.path, tick := w.tick, cur := w.s.cur, offset := w.s.offset }) rfl hall ⟨b', e2, rfl⟩ _ (Nat.le_refl _) ?_ hR.todo_le
      show w.s.offset = _; rw [e5, hso]; push_cast; simp; omega
    · simp only [List.length_append]
      cases hr : r with
      | paused =>
        left
        have := hR.paused hr
        exact ⟨rfl, by omega⟩
      | endOfDag =>
        right; left
        have hs := hR.short (by simp [hr])
        simp only at hs
        obtain ⟨hb', hcn⟩ := e6 hr
        subst hb'; rw [hcn] at hal; simp at hal
        exact ⟨rfl, by omega, by omega⟩
      | err e =>
        right; right
        have hs := hR.short (by simp [hr])
        simp only at hs
        obtain ⟨he, hf⟩ := hR.err e hr
        obtain ⟨u, x, hu, hx⟩ := hf
        exact ⟨by simp [he], by omega, u, x, hu, hx⟩
  unfold DR.read
  cases hcur : dr.cur with
  | none =>
    simp only [Option.isSome_none, Bool.false_eq_true, if_false, false_and]
    rw [hcur] at hcb hdl
    generalize hg : iterate net dr.root readVisitor (walkFuel dr.root) _ = rw
    obtain ⟨r, w⟩ := rw
    exact iter { cur := none, offset := dr.offset, out := [], space := k } [] rfl (by simpa using hcb.symm) (by simp) rfl (by simp) (by simp only; omega) r w hg
  | some d =>
    rw [hcur] at hcb hdl
    simp only [Option.getD_some] at hcb hdl
    have hrb : RS.readBuf { cur := some d, offset := dr.offset, out := [], space := k } = _ :=
      readBuf_some { cur := none, offset := dr.offset, out := [], space := k } d q hI.off (by omega)
    simp only [Option.isSome_some, if_true, true_and]
    rw [hrb]
    simp only [List.nil_append]
    have hlen : (d.take k).length = min k d.length := by simp
    have hdp : c.drop p = d.take k ++ (d.drop k ++ b) := by rw [← hcb, ← List.append_assoc, List.take_append_drop]
    by_cases hz : k - (d.take k).length = 0
    · simp only [hz, if_true]
      have hlk : (d.take k).length = k := by omega
      refine ⟨⟨k, Nat.le_refl _, ?_, ?_, ?_, ?_, .inl ⟨rfl, rfl⟩⟩, Nat.le_refl _, rfl, rfl⟩
      · have := take_of_append hdp; rw [hlk] at this; exact this.symm
      · have := take_of_append hdp; rw [hlk] at this; rw [this, hlk]
      · show ((d.take k).length : Int) = k; rw [hlk]
      · have := hI.advance (dr' := { dr with cur := if d.drop k = [] then none else some (d.drop k), offset := dr.offset + ↑(d.take k).length }) rfl hdp
          ⟨b, hb, by
            by_cases hdr : d.drop k = []
            · simp [hdr]
            · simp [hdr]⟩ _ (Nat.le_refl _) rfl (Nat.le_refl _)
        rw [hlk] at this ⊢
        exact this
    · simp only [hz, if_false]
      have hdr : d.drop k = [] := List.drop_eq_nil_of_le (by omega)
      have htk : d.take k = d := List.take_of_length_le (by omega)
      simp only [hdr, if_true, htk] at hz ⊢
      generalize hg : iterate net dr.root readVisitor (walkFuel dr.root) _ = rw
      obtain ⟨r, w⟩ := rw
      exact iter { cur := none, offset := dr.offset + d.length, out := d, space := k - d.length } d rfl hcb.symm rfl rfl (by simp only; omega) (.inl hz) r w hg

structure WriteOut (net : Net) (wr : Writer) (dr : DR) (c : Bytes) (p q : Nat) (r : Res) (dr' : DR) : Prop where
  mk ::
  ex : ∃ (m m' : Nat), r.bytes = (c.drop p).take m ∧ ((c.drop p).take m).length = m ∧ r.n = m ∧ m' ≤ m ∧ Inv dr' c (p + m) (q + m') ∧
    (r.err = none ∧ m = (c.drop p).length ∧ m' = m ∨
     r.err = some .notFound ∧ m' = m ∧ NetFails net dr.tick ∨
     r.err = some .writeFailed ∧ ¬goodWriter wr)
  tick_le : dr.tick ≤ dr'.tick
  size : dr'.size = dr.size
  root : dr'.root = dr.root

theorem writeTo_spec (net : Net) {dr : DR} {c : Bytes} {p q : Nat} (hI : Inv dr c p q) (wr : Writer) :
    WriteOut net wr dr c p q (dr.writeTo net wr).1 (dr.writeTo net wr).2 := by
  obtain ⟨b, hb, hcb⟩ := hI.stream
  have h1 := hI.len; have h2 := hI.qp; have h3 := hI.q63
  have hfuel : 2 * todo dr.root dr.path + 1 ≤ walkFuel dr.root := by have := hI.todo; simp only [walkFuel]; omega
  have hdl := congrArg List.length hcb
  simp only [List.length_drop, List.length_append] at hdl
  have iter : ∀ (s : TS) (g0 : Bytes), s.cur = none → c.drop p = g0 ++ b → s.offset = dr.offset + g0.length → s.out = g0 →
      ∀ r w, iterate net dr.root (writeVisitor wr) (walkFuel dr.root) { path := dr.path, tick := dr.tick, s := s } = (r, w) →
      WriteOut net wr dr c p q
        { bytes := w.s.out, n := w.s.out.length, err := match r with
           | .paused => none
           | .endOfDag => none
           | .err e => some e }
        { dr with path := w.path, tick := w.tick, cur := w.s.cur, offset := w.s.offset } := by
    intro s g0 hsc hg0 hso hsout r w hit
    have hl0 := congrArg List.length hg0
    simp only [List.length_drop, List.length_append] at hl0
    obtain ⟨r', w', hi, hR⟩ := iterate_write net wr dr.root (walkFuel dr.root) { path := dr.path, tick := dr.tick, s := s } b (q + g0.length) hb hsc hfuel
      (by show s.offset = _; rw [hso, hI.off]; push_cast; rfl) (by omega)
    rw [hit] at hi
    obtain ⟨rfl, rfl⟩ := Prod.mk.inj hi
    obtain ⟨got, b', m, e1, e2, e3, e5, e6, e7, e8⟩ := hR.ex
    simp only at e3 e5
    have hall : c.drop p = (g0 ++ got) ++ (w.s.cur.getD [] ++ b') := by rw [hg0, e1]; simp
    have hout : w.s.out = g0 ++ got := by rw [e3, hsout]
    have hal := congrArg List.length hall
    simp only [List.length_append] at hal
    refine ⟨⟨(g0 ++ got).length, g0.length + m, ?_, ?_, ?_, ?_, ?_, ?_⟩, hR.tick_le, rfl, rfl⟩
    · show w.s.out = _; rw [take_of_append hall, hout]
    · rw [take_of_append hall]
    · simp [hout]
    · simp; omega
    · refine hI.advance (dr' := { dr with path := w.path, tick := w.tick, cur := w.s.cur, offset := w.s.offset }) rfl hall ⟨b', e2, rfl⟩ _ (by simp; omega) ?_ hR.todo_le
      show w.s.offset = _; rw [e5, hso]; push_cast; omega
    · simp only [List.length_append]
      cases hr : r with
      | paused => exact absurd hr hR.notPaused
      | endOfDag =>
        left
        have hm := e7 (by simp [hr])
        obtain ⟨hb', hcn⟩ := e8 hr
        subst hb'; rw [hcn] at hal; simp at hal
        exact ⟨rfl, by simp; omega, by omega⟩
      | err e =>
        right
        rcases hR.err e hr with ⟨he, hf⟩ | ⟨he, i, hi⟩
        · left
          have hm := e7 (by simp [hr, he])
          exact ⟨by simp [he], by omega, hf⟩
        · right
          exact ⟨by simp [he], fun hg => hi (hg i)⟩
  unfold DR.writeTo
  cases hcur : dr.cur with
  | none =>
    simp only [Option.isSome_none, Bool.false_eq_true, if_false]
    rw [hcur] at hcb
    generalize hg : iterate net dr.root (writeVisitor wr) (walkFuel dr.root) _ = rw
    obtain ⟨r, w⟩ := rw
    exact iter { cur := none, offset := dr.offset, out := [], calls := 0 } [] rfl (by simpa using hcb.symm) (by simp) rfl r w hg
  | some d =>
    rw [hcur] at hcb hdl
    simp only [Option.getD_some] at hcb hdl
    simp only [Option.isSome_some, if_true]
    have hwb := writeBuf_some wr { cur := none, offset := dr.offset, out := [], calls := 0 } d q hI.off (by omega)
    rcases hwb with hw | ⟨m, hwm, hw⟩
    · simp only [List.nil_append] at hw
      rw [hw]
      simp only
      generalize hg : iterate net dr.root (writeVisitor wr) (walkFuel dr.root) _ = rw
      obtain ⟨r, w⟩ := rw
      exact iter { cur := none, offset := dr.offset + d.length, out := d, calls := _ } d rfl hcb.symm rfl rfl r w hg
    · simp only [List.nil_append] at hw
      rw [hw]
      simp only
      have hdp : c.drop p = d.take m ++ (d.drop m ++ b) := by rw [← hcb, ← List.append_assoc, List.take_append_drop]
      refine ⟨⟨(d.take m).length, 0, ?_, ?_, rfl, Nat.zero_le _, ?_, .inr (.inr ⟨rfl, ?_⟩)⟩, Nat.le_refl _, rfl, rfl⟩
      · rw [take_of_append hdp]
      · rw [take_of_append hdp]
      · exact hI.advance (dr' := { dr with cur := some (d.drop m), offset := dr.offset }) rfl hdp ⟨b, hb, rfl⟩ 0 (Nat.zero_le _) (by simp) (Nat.le_refl _)
      · intro hg; rw [hg 0] at hwm; cases hwm

structure SeekOut (net : Net) (dr : DR) (c : Bytes) (p q : Nat) (t : Int) (r : Res) (dr' : DR) : Prop where
  mk ::
  neg : t < 0 → r = { n := q, err := some .invalidOffset } ∧ dr' = dr
  ok : 0 ≤ t → r = { n := t } ∧ (t = q ∧ dr' = dr ∨ t ≠ q ∧ Inv dr' c t.toNat t.toNat) ∨
    r = { n := 0, err := some .notFound } ∧ NetFails net dr.tick ∧ t ≠ q ∧ ∃ p', p' ≤ t.toNat ∧ Inv dr' c p' 0
  tick_le : dr.tick ≤ dr'.tick
  size : dr'.size = dr.size
  root : dr'.root = dr.root

theorem seekStart_spec (net : Net) {dr : DR} {c : Bytes} {p q : Nat} (hI : Inv dr c p q) (hs : SizesTrue dr.root) (t : Int) (ht : t < 2 ^ 63) :
    SeekOut net dr c p q t (dr.seekStart net t).1 (dr.seekStart net t).2 := by
  have h1 := hI.len; have h2 := hI.qp; have h3 := hI.q63
  unfold DR.seekStart
  by_cases h0 : t < 0
  · simp only [h0, if_true, hI.off]
    exact ⟨fun _ => ⟨rfl, rfl⟩, fun h => by omega, Nat.le_refl _, rfl, rfl⟩
  · simp only [h0, if_false]
    by_cases heq : t = dr.offset
    · simp only [heq, if_true]
      have : dr.offset = (q : Int) := hI.off
      exact ⟨fun h => by omega, fun _ => .inl ⟨rfl, .inl ⟨this, rfl⟩⟩, Nat.le_refl _, rfl, rfl⟩
    · simp only [heq, if_false]
      have hne : t ≠ q := by rw [hI.off] at heq; exact heq
      by_cases hz : t = 0
      · simp only [hz, if_true]
        refine ⟨fun h => by omega, fun _ => .inl ⟨rfl, .inr ⟨by rw [hz] at hne; exact hne, ?_⟩⟩, Nat.le_refl _, rfl, rfl⟩
        exact ⟨hI.content, hI.len, ⟨c, hI.content, by simp⟩, rfl, Nat.le_refl _, by simp, by simp [Reader.todo]⟩
      · simp only [hz, if_false]
        obtain ⟨r, w, hw, hS⟩ := walkSeek_spec net dr.root c t.toNat (by omega) (walkFuel dr.root)
          { path := [], tick := dr.tick, s := { left := t.toNat, cur := none } }
          ⟨⟨0, by simp, Nat.zero_le _, by simpa [Rem] using hI.content⟩, rfl, fun _ => ⟨hs, rfl⟩, by simp⟩ (by simp only [Reader.todo, walkFuel]; omega)
        rw [hw]
        have htd : Reader.todo dr.root w.path ≤ dr.root.count := by have := hS.todo_le; simpa [Reader.todo] using this
        cases r with
        | none =>
          refine ⟨fun h => absurd h h0, fun _ => .inl ⟨rfl, .inr ⟨hne, ?_⟩⟩, hS.tick_le, rfl, rfl⟩
          obtain ⟨b, hb, hcb⟩ := hS.ok rfl
          exact ⟨hI.content, hI.len, ⟨b, hb, hcb⟩, by simp only; omega, Nat.le_refl _, by omega, htd⟩
        | some e =>
          obtain ⟨he, hf, hcn, p', hp1, hp2, hp3⟩ := hS.err e rfl
          refine ⟨fun h => absurd h h0, fun _ => .inr ⟨by simp [he], hf, hne, p', hp1, ?_⟩, hS.tick_le, rfl, rfl⟩
          exact ⟨hI.content, hI.len, ⟨_, hp3, by simp [hcn]⟩, rfl, Nat.zero_le _, by simp, htd⟩

end Unixfs.Reader
