import Verif.Import.AppendShape
import Verif.Props.Import

/-! # C16–C18, C57, C58: `trickle.Append` -/

namespace Unixfs.Props
open Unixfs.Import Unixfs.Spec

/-! ### A concrete base and append, to which the theorems are applied below -/

/-- A base of 6 chunks with 2 links per node (root: 2 leaves and 2 sub-graphs), and 5 more chunks. -/
def exBaseDB : DB := { maxlinks := 2, src := [[1], [2], [3], [4], [5], [6]] }
def exAppDB : DB := { maxlinks := 2, src := [[7], [8], [9], [10], [11]] }
theorem exAppFresh : Fresh { maxlinks := 2 } none [[7], [8], [9], [10], [11]] none none exAppDB := ⟨_, rfl, rfl⟩

/-- What is known of a base and of an append to it. -/
structure ExApp (base n : Node) (db' : DB) : Prop where
  made : Made { maxlinks := 2 } base [1, 2, 3, 4, 5, 6]
  links : base.links.length = 4
  height : height base = 2
  verified : Trickle.verify base { direct := 2, layerRepeat := 4 } = .ok ()
  run : Trickle.append 9 9 base { exAppDB with canGet := fun _ => true } = .ok (n, db')
  missing : ∃ e, Trickle.append 9 9 base { exAppDB with canGet := fun _ => false } = .error e
  content : Spec.content base = some [1, 2, 3, 4, 5, 6]
  sizes : SizesTrue base
  growable : Growable 2 base
  appendable : Appendable 2 base

theorem exApp : ∃ base n db', ExApp base n db' := by
  have hf : Fresh { maxlinks := 2 } none [[1], [2], [3], [4], [5], [6]] none none exBaseDB := ⟨_, rfl, rfl⟩
  obtain ⟨base, db1, h, hl⟩ : ∃ base db1, Trickle.layout 9 exBaseDB = .ok (base, db1) ∧ base.links.length = 4 :=
    ok_of (fun r : Node => r.links.length) (by decide +kernel)
  have hv := C10_trickle_shape hf (by decide) h none (.inl rfl)
  have hh : height base = 2 := by
    have : (match Trickle.layout 9 exBaseDB with | .ok (b, _) => height b | .error _ => 0) = 2 := by decide +kernel
    rw [h] at this; exact this
  obtain ⟨n, db', hr⟩ : ∃ n db', Trickle.append 9 9 base { exAppDB with canGet := fun _ => true } = .ok (n, db') := by
    have : (match Trickle.layout 9 exBaseDB with
      | .ok (b, _) => (match Trickle.append 9 9 b { exAppDB with canGet := fun _ => true } with | .ok _ => true | .error _ => false)
      | .error _ => false) = true := by decide +kernel
    rw [h] at this
    cases hr : Trickle.append 9 9 base { exAppDB with canGet := fun _ => true } with
    | ok q => exact ⟨q.1, q.2, rfl⟩
    | error e => simp only [hr] at this; cases this
  have hmiss : ∃ e, Trickle.append 9 9 base { exAppDB with canGet := fun _ => false } = .error e := by
    have : (match Trickle.layout 9 exBaseDB with
      | .ok (b, _) => (match Trickle.append 9 9 b { exAppDB with canGet := fun _ => false } with | .ok _ => true | .error _ => false)
      | .error _ => true) = false := by decide +kernel
    rw [h] at this
    cases hr : Trickle.append 9 9 base { exAppDB with canGet := fun _ => false } with
    | ok q => simp only [hr] at this; cases this
    | error e => exact ⟨e, rfl⟩
  exact ⟨base, n, db', .layout hf h, hl, hh, hv, hr, hmiss, C07_trickle_content hf (by decide) h, C08_trickle_sizes hf (by decide) h,
    Trickle.verify_growable (by omega) hv, Trickle.verify_appendable (by omega) hv⟩

section
variable {p : Params} {path : Option Bytes} {chunks : List Bytes} {fin : Option Err} {budget : Option Nat} {db db' : DB} {fuel h : Nat}
  {g : Node → Bool} {base n : Node} {c : Bytes}

theorem Fresh.facts_get (hf : Fresh p path chunks fin budget db) (g : Node → Bool) :
    ({ db with canGet := g } : DB).Inv ∧ ({ db with canGet := g } : DB).pend = chunks := by
  obtain ⟨hi, hp, _⟩ := Fresh.facts hf
  exact ⟨hi, hp⟩

/-- What a successful `Append` did. -/
theorem append_ok (hf : Fresh p path chunks fin budget db) (h1 : 1 ≤ p.maxlinks) (hs : SizesTrue base) (ha : Appendable p.maxlinks base)
    (hc : content base = some c) (hr : Trickle.append fuel h base { db with canGet := g } = .ok (n, db')) :
    ∃ (fsn : FSN) (new : List Built), Adv { db with canGet := g } chunks new db' ∧ ¬db'.More ∧ fsn.OK (c ++ chunks.flatten) ∧
      (p.maxlinks < fsn.links.length → AppendableLast p.maxlinks fsn.links) ∧ n = .proto fsn.file.bytes fsn.links fsn.builder ∧
      (∀ l ∈ fsn.links, ∀ x, Reach l.target x → (∃ l' ∈ base.links, Reach l'.target x) ∨ ∃ b ∈ new, b.node = x) := by
  obtain ⟨hi, hp⟩ := Fresh.facts_get hf g
  obtain ⟨_, _, hm, _⟩ := Fresh.facts hf
  cases base with
  | raw d b => exact ha.elim
  | other d => exact ha.elim
  | proto d ls b =>
    obtain ⟨fsn, hfd, ho, hl, hb, hu, hA⟩ := Trickle.append_spec p.maxlinks (by omega) fuel h d ls b { db with canGet := g } c hm hi hs ha hc
    rw [hr] at hA
    obtain ⟨fsn', hA, hnm, hn⟩ := hA
    obtain ⟨cs, new, hadv, ho', hs', hreach, hb', ht', hcs⟩ := hA.ex
    rw [hp] at hcs
    subst hcs
    refine ⟨fsn', new, hadv, hnm, ho', hs', hn, ?_⟩
    intro l hl' x hx
    have := hreach l hl' x hx
    rw [hl] at this; exact this

/-! ### C16, C17 -/

/-- C16: the content of the result is the content of the base followed by the chunks. -/
theorem C16_append_content (hf : Fresh p path chunks fin budget db) (h1 : 1 ≤ p.maxlinks) (hs : SizesTrue base)
    (ha : Appendable p.maxlinks base) (hc : content base = some c)
    (hr : Trickle.append fuel h base { db with canGet := g } = .ok (n, db')) : content n = some (c ++ chunks.flatten) := by
  obtain ⟨fsn, new, _, _, ho, _, hn, _⟩ := append_ok hf h1 hs ha hc hr
  rw [hn]; exact (ho.node _).1

example : ∃ base n db', ExApp base n db' ∧ content n = some [1, 2, 3, 4, 5, 6, 7, 8, 9, 10, 11] := by
  obtain ⟨base, n, db', x⟩ := exApp
  exact ⟨base, n, db', x, C16_append_content exAppFresh (by decide) x.sizes x.appendable x.content x.run⟩

/-- C17: recorded sizes are true at every node of the result. -/
theorem C17_append_sizes (hf : Fresh p path chunks fin budget db) (h1 : 1 ≤ p.maxlinks) (hs : SizesTrue base)
    (ha : Appendable p.maxlinks base) (hr : Trickle.append fuel h base { db with canGet := g } = .ok (n, db')) : SizesTrue n := by
  obtain ⟨c, hc⟩ := sizesTrue_content hs
  obtain ⟨fsn, new, _, _, ho, _, hn, _⟩ := append_ok hf h1 hs ha hc hr
  rw [hn]; exact (ho.node _).2

example : ∃ base n db', ExApp base n db' ∧ SizesTrue n := by
  obtain ⟨base, n, db', x⟩ := exApp
  exact ⟨base, n, db', x, C17_append_sizes exAppFresh (by decide) x.sizes x.appendable x.run⟩

/-- The result can be appended to again. -/
theorem C16_append_appendable (hf : Fresh p path chunks fin budget db) (h1 : 1 ≤ p.maxlinks) (hs : SizesTrue base)
    (ha : Appendable p.maxlinks base) (hr : Trickle.append fuel h base { db with canGet := g } = .ok (n, db')) : Appendable p.maxlinks n := by
  obtain ⟨c, hc⟩ := sizesTrue_content hs
  obtain ⟨fsn, new, _, _, ho, hsp, hn, _⟩ := append_ok hf h1 hs ha hc hr
  rw [hn]; exact ⟨⟨_, ho.unmarshal, ho.data⟩, hsp⟩

example : ∃ base n db', ExApp base n db' ∧ Appendable 2 n := by
  obtain ⟨base, n, db', x⟩ := exApp
  exact ⟨base, n, db', x, C16_append_appendable exAppFresh (by decide) x.sizes x.appendable x.run⟩

/-- `Append` keeps a DAG growable. -/
theorem C16_append_growable (hf : Fresh p path chunks fin budget db) (h1 : 1 ≤ p.maxlinks) (hs : SizesTrue base)
    (ha : Growable p.maxlinks base) (hr : Trickle.append fuel h base { db with canGet := g } = .ok (n, db')) : Growable p.maxlinks n := by
  obtain ⟨hi, hp⟩ := Fresh.facts_get hf g
  obtain ⟨_, _, hm, _⟩ := Fresh.facts hf
  obtain ⟨c, hc⟩ := sizesTrue_content hs
  cases base with
  | raw d b => exact ha.elim
  | other d => exact ha.elim
  | proto d ls b =>
    obtain ⟨fsn, hfd, ho, hl, hb, hu, hA⟩ := Trickle.append_spec p.maxlinks (by omega) fuel h d ls b { db with canGet := g } c hm hi hs
      (growable_appendable ha) hc
    rw [hr] at hA
    obtain ⟨fsn', hA, hnm, hn⟩ := hA
    obtain ⟨cs, new, hadv, ho', -⟩ := hA.ex
    rw [hn]
    exact ⟨⟨_, ho'.unmarshal, ho'.data⟩, hA.grow (by rw [hl]; exact ha.2)⟩

example : ∃ base n db', ExApp base n db' ∧ Growable 2 n := by
  obtain ⟨base, n, db', x⟩ := exApp
  exact ⟨base, n, db', x, C16_append_growable exAppFresh (by decide) x.sizes x.growable x.run⟩

/-- A DAG accepted by `VerifyTrickleDagStructure` is growable. -/
theorem C16_verified_growable {vp : Trickle.VerifyParams} (hv : Trickle.verify n vp = .ok ()) : Growable vp.direct n :=
  Trickle.verify_growable (by omega) hv

/-- A DAG accepted by `VerifyTrickleDagStructure` can be appended to. -/
theorem C16_verified_appendable {vp : Trickle.VerifyParams} (hv : Trickle.verify n vp = .ok ()) : Appendable vp.direct n :=
  Trickle.verify_appendable (by omega) hv

example : ∃ base n db', ExApp base n db' ∧ Appendable 2 base := by
  obtain ⟨base, n, db', x⟩ := exApp
  exact ⟨base, n, db', x, C16_verified_appendable x.verified⟩

/-- C16, C17: every DAG made by `Layout` and any number of `Append`s has the concatenated content and
true sizes, and can be appended to. -/
theorem C16_history (h1 : 1 ≤ p.maxlinks) (hm : Made p n c) : content n = some c ∧ SizesTrue n ∧ Appendable p.maxlinks n := by
  induction hm with
  | layout hf hr =>
    refine ⟨C07_trickle_content hf h1 hr, C08_trickle_sizes hf h1 hr, ?_⟩
    exact C16_verified_appendable (C10_trickle_shape hf h1 hr none (.inl rfl))
  | append _ hf hr ih =>
    obtain ⟨hc, hs, ha⟩ := ih
    exact ⟨C16_append_content hf h1 hs ha hc hr, C17_append_sizes hf h1 hs ha hr, C16_append_appendable hf h1 hs ha hr⟩

example : ∃ base n db', ExApp base n db' ∧ content n = some [1, 2, 3, 4, 5, 6, 7, 8, 9, 10, 11] ∧ SizesTrue n ∧ Appendable 2 n := by
  obtain ⟨base, n, db', x⟩ := exApp
  exact ⟨base, n, db', x, C16_history (by decide) (.append x.made exAppFresh x.run)⟩

/-- Appending to a file made by `balanced.Layout` from a single chunk loses the old data: the chunk
sits in the root, which is no longer a leaf afterwards. (`Append` is documented for trickle DAGs.) -/
theorem C16_append_to_leaf_loses_data : ∃ (base n : Node) (db' : DB),
    (match Balanced.layout 2 { maxlinks := 2, src := [[1, 2]] } with | .ok (r, _) => r.node = base | _ => False) ∧
    content base = some [1, 2] ∧ Trickle.append 5 5 base { maxlinks := 2, src := [[3]] } = .ok (n, db') ∧ content n = some [3] := by
  refine ⟨_, _, _, rfl, ?_, rfl, ?_⟩ <;> decide +kernel

/-! ### C18 -/

/-- C18 is false as stated: appending three chunks to an empty file (one link per node) yields a DAG
that `VerifyTrickleDagStructure` rejects. -/
theorem C18_append_breaks_shape : ∃ (base n : Node) (db1 db2 : DB),
    Trickle.layout 5 { maxlinks := 1, src := [] } = .ok (base, db1) ∧
    Trickle.append 5 5 base { maxlinks := 1, src := [[1], [2], [3]] } = .ok (n, db2) ∧
    Trickle.verify base { direct := 1, layerRepeat := 4 } = .ok () ∧
    Trickle.verify n { direct := 1, layerRepeat := 4 } = .error (.badTrickle "child dag was too deep") := by
  refine ⟨_, _, _, _, rfl, rfl, ?_, ?_⟩ <;> decide +kernel

/-- The same for a base that is not empty and a realistic number of links: any base whose root has
exactly its direct blocks filled (here two of two), followed by four more chunks. -/
theorem C18_append_breaks_shape_full : ∃ (base n : Node) (db1 db2 : DB),
    Trickle.layout 5 { maxlinks := 2, src := [[1], [2]] } = .ok (base, db1) ∧
    Trickle.append 9 9 base { maxlinks := 2, src := [[3], [4], [5], [6]] } = .ok (n, db2) ∧
    Trickle.verify base { direct := 2, layerRepeat := 4 } = .ok () ∧
    Trickle.verify n { direct := 2, layerRepeat := 4 } = .error (.badTrickle "child dag was too deep") := by
  refine ⟨_, _, _, _, rfl, rfl, ?_, ?_⟩ <;> decide +kernel

/-- C18 (partial): `Append` keeps the shape if the new chunks fit the free direct slots of the root, or
if the root ends inside (not at the end of) one of its first three layers of sub-graphs. Missing: the
other cases, in which the shape is broken in general (`C18_append_breaks_shape`). -/
theorem C18_append_shape_partial (hf : Fresh p path chunks fin budget db) (h1 : 1 ≤ p.maxlinks) (hs : SizesTrue base)
    (hr : Trickle.append fuel h base { db with canGet := g } = .ok (n, db')) (pfx : Option Builder)
    (hpfx : pfx = none ∨ ∃ b, p.cidBuilder = some b ∧ pfx = some b ∧ b.version ≤ 1 ∧ (b.codec = 0x55 → b.version = 1))
    (hv : Trickle.verify base { direct := p.maxlinks, layerRepeat := 4, rawLeaves := p.rawLeaves, pfx := pfx } = .ok ())
    (hcase : (base.links.length < p.maxlinks ∧ base.links.length + chunks.length ≤ p.maxlinks) ∨
      (p.maxlinks < base.links.length ∧ base.links.length < p.maxlinks + 12 ∧ (base.links.length - p.maxlinks) % 4 ≠ 0)) :
    Trickle.verify n { direct := p.maxlinks, layerRepeat := 4, rawLeaves := p.rawLeaves, pfx := pfx } = .ok () := by
  obtain ⟨hi, hp⟩ := Fresh.facts_get hf g
  obtain ⟨_, _, hm, hraw, hcb, hse, _⟩ := Fresh.facts hf
  have happ := C16_verified_appendable hv
  obtain ⟨c, hc⟩ := sizesTrue_content hs
  obtain ⟨_, _, hadv, hnm, _⟩ := append_ok hf h1 hs happ hc hr
  have hfin : db.srcEnd = none := by
    unfold DB.More at hnm
    rw [not_not] at hnm
    have := hadv.srcEnd
    rw [hnm.2] at this; exact this.symm
  have hF : Trickle.Fits { direct := p.maxlinks, layerRepeat := 4, rawLeaves := p.rawLeaves, pfx := pfx }
      (({ db with canGet := g } : DB).cfg TRaw) p.maxlinks :=
    ⟨rfl, rfl, hraw.symm, fun _ => rfl, rfl, by rw [show (({ db with canGet := g } : DB).cfg TRaw).cidBuilder = p.cidBuilder from hcb]; exact hpfx⟩
  cases base with
  | raw d b => exact happ.elim
  | other d => exact happ.elim
  | proto d ls b =>
    rcases hcase with ⟨ha, hb⟩ | ⟨ha, hb, hc⟩
    · exact Trickle.append_shape_direct (by omega) hF hm hi hs hv ha (by rw [hp]; exact hb) hfin hr
    · exact Trickle.append_shape_inside (by omega) hF hm hi hs hv ha hb hc hr

example : ∃ base n db', ExApp base n db' ∧ Trickle.verify n { direct := 2, layerRepeat := 4 } = .ok () := by
  obtain ⟨base, n, db', x⟩ := exApp
  exact ⟨base, n, db', x, C18_append_shape_partial exAppFresh (by decide) x.sizes x.run none (.inl rfl) x.verified (.inr (by rw [x.links]; decide))⟩

/-! ### C57: no truncation, errors and termination -/

/-- C57: success means the splitter ended with EOF and no chunk was oversized. -/
theorem C57_append_no_truncation (hf : Fresh p path chunks fin budget db) (h1 : 1 ≤ p.maxlinks) (hs : SizesTrue base)
    (ha : Appendable p.maxlinks base) (hr : Trickle.append fuel h base { db with canGet := g } = .ok (n, db')) :
    fin = none ∧ AllFit chunks := by
  obtain ⟨_, _, _, _, _, hse, _⟩ := Fresh.facts hf
  obtain ⟨c, hc⟩ := sizesTrue_content hs
  obtain ⟨_, _, hadv, hnm, _⟩ := append_ok hf h1 hs ha hc hr
  unfold DB.More at hnm
  rw [not_not] at hnm
  refine ⟨?_, hadv.lim⟩
  have := hadv.srcEnd
  rw [hnm.2] at this
  rw [← hse]; exact this.symm

example : ∃ base n db', ExApp base n db' ∧ AllFit [[7], [8], [9], [10], [11]] := by
  obtain ⟨base, n, db', x⟩ := exApp
  exact ⟨base, n, db', x, (C57_append_no_truncation exAppFresh (by decide) x.sizes x.appendable x.run).2⟩

/-- C57: the only errors of `Append`, each only when it applies: an oversized chunk, the splitter's
error, a refusal of the DAG service, a block of the base that cannot be fetched. In particular it
terminates: no bound is hit once `fuel` exceeds the number of chunks and `h` the height of the base. -/
theorem C57_append_errors {e : Err} (hf : Fresh p path chunks fin budget db) (h1 : 1 ≤ p.maxlinks) (hs : SizesTrue base)
    (ha : Appendable p.maxlinks base) (hfuel : chunks.length < fuel) (hh : height base ≤ h)
    (hr : Trickle.append fuel h base { db with canGet := g } = .error e) :
    (e = .sizeLimitExceeded ∧ ¬AllFit chunks) ∨ fin = some e ∨ (e = .addFailed ∧ budget ≠ none) ∨
    (e = .notFound ∧ ∃ x, OnSpine p.maxlinks base x ∧ g x = false) := by
  obtain ⟨hi, hp⟩ := Fresh.facts_get hf g
  obtain ⟨_, _, hm, _, _, hse, _, _, hb, _⟩ := Fresh.facts hf
  obtain ⟨c, hc⟩ := sizesTrue_content hs
  have key : Fail ({ db with canGet := g } : DB) e → (e = .sizeLimitExceeded ∧ ¬AllFit chunks) ∨ fin = some e ∨ (e = .addFailed ∧ budget ≠ none) := by
    rintro (⟨he, x, hx, hl⟩ | hx | ⟨he, hx⟩)
    · refine .inl ⟨he, fun hall => ?_⟩
      rw [hp] at hx
      have := hall x hx; unfold blockSizeLimit at hl; omega
    · exact .inr (.inl (by rw [← hse]; exact hx))
    · exact .inr (.inr ⟨he, by rw [← hb]; exact hx⟩)
  have key2 : ∀ q : Prop, Fail ({ db with canGet := g } : DB) e →
      (e = .sizeLimitExceeded ∧ ¬AllFit chunks) ∨ fin = some e ∨ (e = .addFailed ∧ budget ≠ none) ∨ q := by
    intro q hq
    rcases key hq with h | h | h
    · exact .inl h
    · exact .inr (.inl h)
    · exact .inr (.inr (.inl h))
  cases base with
  | raw d b => exact ha.elim
  | other d => exact ha.elim
  | proto d ls b =>
    obtain ⟨fsn, hfd, ho, hl, hb', hu, hA⟩ := Trickle.append_spec p.maxlinks (by omega) fuel h d ls b { db with canGet := g } c hm hi hs ha hc
    rw [hr] at hA
    rcases hA with hA | ⟨_, hA | ⟨he, hbig, pre, l, hl', x, hx, hg⟩ | ⟨_, hh'⟩⟩ | ⟨_, hA⟩
    · exact key2 _ hA
    · exact key2 _ hA
    · rw [hl] at hl' hbig
      dsimp only at hbig hx
      rw [hm] at hbig hx
      refine .inr (.inr (.inr ⟨he, x, ?_, hg⟩))
      rcases hx with rfl | hx
      · exact .last (x := .proto d ls b) hl' hbig
      · exact .down (x := .proto d ls b) hl' hbig hx
    · rw [hl] at hh'; simp only [height] at hh; omega
    · rw [hp] at hA; omega

/-- The last child of the base cannot be fetched. -/
example : ∃ base e, Made { maxlinks := 2 } base [1, 2, 3, 4, 5, 6] ∧ Trickle.append 9 9 base { exAppDB with canGet := fun _ => false } = .error e ∧ e = .notFound := by
  obtain ⟨base, n, db', x⟩ := exApp
  obtain ⟨e, he⟩ := x.missing
  refine ⟨base, e, x.made, he, ?_⟩
  rcases C57_append_errors exAppFresh (by decide) x.sizes x.appendable (by decide) (by rw [x.height]; decide) he with ⟨_, h⟩ | h | ⟨_, h⟩ | ⟨h, _⟩
  · exact absurd (C57_append_no_truncation exAppFresh (by decide) x.sizes x.appendable x.run).2 h
  · cases h
  · exact absurd rfl h
  · exact h

/-- C57: `Append` succeeds when nothing fails. -/
theorem C57_append_terminates (hf : Fresh p path chunks none none db) (h1 : 1 ≤ p.maxlinks) (hs : SizesTrue base)
    (ha : Appendable p.maxlinks base) (hfit : AllFit chunks) (hg : ∀ x, OnSpine p.maxlinks base x → g x = true)
    (hfuel : chunks.length < fuel) (hh : height base ≤ h) :
    ∃ n db', Trickle.append fuel h base { db with canGet := g } = .ok (n, db') := by
  cases hr : Trickle.append fuel h base { db with canGet := g } with
  | ok q => exact ⟨q.1, q.2, rfl⟩
  | error e =>
    rcases C57_append_errors hf h1 hs ha hfuel hh hr with ⟨_, h⟩ | h | ⟨_, h⟩ | ⟨_, x, hx, h⟩
    · exact absurd hfit h
    · exact absurd h (by simp)
    · exact absurd rfl h
    · rw [hg x hx] at h; exact absurd h (by simp)

example : ∃ base n db', ExApp base n db' ∧ ∃ n db', Trickle.append 6 2 base { exAppDB with canGet := fun _ => true } = .ok (n, db') := by
  obtain ⟨base, n, db', x⟩ := exApp
  exact ⟨base, n, db', x, C57_append_terminates exAppFresh (by decide) x.sizes x.appendable (C57_append_no_truncation exAppFresh (by decide) x.sizes x.appendable x.run).2 (fun _ _ => rfl) (by decide) (by rw [x.height])⟩

/-- A base that is not a dag-pb node is refused. -/
theorem C57_append_not_proto (hb : ∀ d ls b, base ≠ .proto d ls b) : Trickle.append fuel h base db = .error .notProtobuf := by
  cases base with
  | proto d ls b => exact absurd rfl (hb d ls b)
  | raw d b => rfl
  | other d => rfl

example : Trickle.append 9 9 (.raw [1, 2, 3] .v0) exAppDB = .error .notProtobuf := C57_append_not_proto (by simp)

/-! ### C58: completeness of the store -/

/-- C58: every node of the result except the root itself was reachable from the base or has been
stored. (The root is not stored: the caller must do that.) -/
theorem C58_append_stored (hf : Fresh p path chunks fin budget db) (h1 : 1 ≤ p.maxlinks) (hs : SizesTrue base)
    (ha : Appendable p.maxlinks base) (hr : Trickle.append fuel h base { db with canGet := g } = .ok (n, db')) :
    ∀ l ∈ n.links, ∀ x, Reach l.target x → Reach base x ∨ Stored db' x := by
  obtain ⟨_, _, _, _, _, _, hadd, _⟩ := Fresh.facts hf
  obtain ⟨c, hc⟩ := sizesTrue_content hs
  obtain ⟨fsn, new, hadv, _, _, _, hn, hreach⟩ := append_ok hf h1 hs ha hc hr
  intro l hl x hx
  rw [hn] at hl
  rcases hreach l hl x hx with ⟨l', hl', hx'⟩ | ⟨b, hb, he⟩
  · exact .inl (.step hl' hx')
  · refine .inr ⟨b, ?_, he⟩
    rw [hadv.added]; simp [hb]

example : ∃ base n db', ExApp base n db' ∧ ∀ l ∈ n.links, ∀ y, Reach l.target y → Reach base y ∨ Stored db' y := by
  obtain ⟨base, n, db', x⟩ := exApp
  exact ⟨base, n, db', x, C58_append_stored exAppFresh (by decide) x.sizes x.appendable x.run⟩

/-! ### C70: appending shares the existing data blocks -/

/-- C70: the data blocks of the file are kept, unchanged and in order, and followed by exactly one new
block per chunk that is not empty. -/
theorem C70_append_keeps_blocks (hf : Fresh p path chunks fin budget db) (h1 : 1 ≤ p.maxlinks) (hs : SizesTrue base)
    (ha : Appendable p.maxlinks base) (hr : Trickle.append fuel h base { db with canGet := g } = .ok (n, db')) :
    ∃ new, blocks n = blocks base ++ new ∧ List.Forall₂ (LeafFor p TRaw) new (chunks.filter (· ≠ [])) := by
  obtain ⟨hi, hp⟩ := Fresh.facts_get hf g
  obtain ⟨_, _, hm, _⟩ := Fresh.facts hf
  have hfit := (C57_append_no_truncation hf h1 hs ha hr).2
  obtain ⟨c, hc⟩ := sizesTrue_content hs
  cases base with
  | raw d b => exact ha.elim
  | other d => exact ha.elim
  | proto d ls b =>
    obtain ⟨fsn, hfd, ho, hl, hb, hu, hA⟩ := Trickle.append_spec p.maxlinks (by omega) fuel h d ls b { db with canGet := g } c hm hi hs ha hc
    rw [hr] at hA
    obtain ⟨fsn', hA, hnm, hn⟩ := hA
    obtain ⟨_, cs, hpend, hbl⟩ := hA.kept
    unfold DB.More at hnm
    rw [not_not] at hnm
    rw [hnm.1, List.append_nil, hp] at hpend
    subst hpend
    obtain ⟨_, _, _, ho', _⟩ := hA.ex
    refine ⟨Trickle.chunkBlocks (({ db with canGet := g } : DB).cfg TRaw) chunks, ?_, ?_⟩
    · rw [hn, Trickle.blocks_proto, Trickle.blocks_proto, hbl, hl]
      · intro he
        have := ho.cont
        rw [hl, he] at this
        rw [hc]; simpa [contentL] using this.symm
      · intro he
        have := ho'.cont
        rw [he] at this
        rw [(ho'.node _).1]; simpa [contentL] using this.symm
    · have hcfg : ({ db with canGet := g } : DB).cfg TRaw = ⟨p.rawLeaves, p.cidBuilder, TRaw⟩ := Fresh.cfg hf TRaw
      rw [hcfg]
      refine forall2_leaf p TRaw _ (fun x hx => ?_)
      have := hfit x (List.mem_filter.mp hx).1
      unfold blockSizeLimit; omega

example : ∃ base n db', ExApp base n db' ∧ ∃ new, blocks n = blocks base ++ new ∧ List.Forall₂ (LeafFor { maxlinks := 2 } TRaw) new [[7], [8], [9], [10], [11]] := by
  obtain ⟨base, n, db', x⟩ := exApp
  exact ⟨base, n, db', x, C70_append_keeps_blocks exAppFresh (by decide) x.sizes x.appendable x.run⟩

/-- With an empty chunk among the new ones: six blocks kept, two added. -/
example : ∃ base db1 n db2, Trickle.layout 9 { maxlinks := 2, src := [[1], [2], [3], [4], [5], [6]] } = .ok (base, db1) ∧
    Trickle.append 9 9 base { maxlinks := 2, src := [[7], [], [8]] } = .ok (n, db2) ∧ (blocks base).length = 6 ∧
    (blocks n).length = 8 ∧ (blocks n).take 6 = blocks base ∧ (leaves n).length = 9 := by
  refine ⟨_, _, _, _, rfl, rfl, ?_, ?_, ?_, ?_⟩ <;> decide +kernel

end

end Unixfs.Props
