import Verif.Reader.Whole
import Verif.Props.AnyDag

/-!
# C122: what is read without an error is the whole file, for any DAG
-/

namespace Unixfs.Props
open Unixfs Unixfs.Spec Unixfs.Reader Unixfs.Hamt

variable {net net' : Net} {t t' : Nat} {nd x y : Node} {dr dr' : DR}

theorem opens_unique (h : Opens nd x) : ∀ {y}, Opens nd y → x = y := by
  induction h with
  | raw => intro y h; cases h; rfl
  | file d ls b m hm hf =>
    intro y h
    cases h with
    | file => rfl
    | metadata d l ls b m' _ hm' ht _ _ =>
      rw [hm] at hm'; cases hm'
      rcases hf with hf | hf <;> · rw [ht] at hf; cases hf
  | metadata d l ls b m x hm ht hp h ih =>
    intro y h'
    cases h' with
    | file _ _ _ m' hm' hf =>
      rw [hm] at hm'; cases hm'
      rcases hf with hf | hf <;> · rw [ht] at hf; cases hf
    | metadata _ _ _ _ _ _ _ _ _ h' => exact ih h'

/-- C122: if `WriteTo` on any DAG reports no error, then the DAG has content, and that is what was written: nothing was skipped, cut off or made up. The content
is that of the leaves; the sizes that nodes record play no part. -/
theorem C122_writeTo (hn : newDagReader net t nd = .ok dr) {w : Writer} (hw : goodWriter w) (he : (dr.writeTo net w).1.err = none) :
    ∃ x c, Opens nd x ∧ content x = some c ∧ (c.length < 2 ^ 63 → (dr.writeTo net w).1 = { bytes := c, n := c.length }) := by
  obtain ⟨ho, _, h3, h4, h5, _⟩ := open_conv net nd t dr hn
  have hb := writeTo_back (net := net) (dr := dr) (w := w) (by rw [h3]; trivial) he
  rw [h3] at hb
  obtain ⟨c, hc⟩ := hb
  refine ⟨dr.root, c, ho, hc, fun hl => ?_⟩
  obtain ⟨p, hp, _⟩ := cut_run net [.writeTo w] (inv_open hc hl h3 h4 h5) (.inl (by simp)) (by intro w' hw'; simp at hw'; subst hw'; exact hw)
    (by intro i off wh r h; match i, h with | 0, h => simp at h | k + 1, h => simp at h)
  rw [run_cons, run_nil] at hp
  cases hp with
  | cons h _ =>
    generalize hr : (dr.step net (.writeTo w)).1 = r at h
    have hr' : (dr.writeTo net w).1 = r := hr
    rw [hr'] at he ⊢
    cases h with
    | whole h => cases h; rfl
    | writeTo => cases he

/-- C122: the same for `Read` until the end of the file is reported. Blocks that could not be fetched may be asked for again, any number of times. -/
theorem C122_reads (hn : newDagReader net t nd = .ok dr) {ks : List Nat} (hk : ∀ k ∈ ks, 0 < k) {rs : List Res} {r : Res} (h : dr.run net (ks.map .read) = (rs ++ [r], dr'))
    (hrs : ∀ x ∈ rs, x.err = none ∨ x.err = some .notFound) (he : r.err = some .eof) :
    ∃ x c, Opens nd x ∧ content x = some c ∧ (c.length < 2 ^ 63 → ((rs ++ [r]).map Res.bytes).flatten = c) := by
  obtain ⟨ho, _, h3, _⟩ := open_conv net nd t dr hn
  have hb := reads_back ks (by rw [h3]; trivial) h hrs he
  rw [h3] at hb
  obtain ⟨c, hc⟩ := hb
  refine ⟨dr.root, c, ho, hc, fun hl => ?_⟩
  obtain ⟨p, hp, _⟩ := C23_reads_resume hn hc hl ks []
  rw [h] at hp
  have h4 := cut_end ks rs r 0 p hp hk he
  obtain ⟨_, _, h5⟩ := C23_delivered c ks _ 0 p hp (by omega)
  rw [h5, List.drop_zero, List.take_of_length_le (by omega)]

/-- C122: two programs that read the same DAG, at different times and with different blocks at hand, one with `WriteTo` and one with `Read`, and both get no error, get the same bytes. -/
theorem C122_same (hn : newDagReader net t nd = .ok dr) {w : Writer} (hw : goodWriter w) (he : (dr.writeTo net w).1.err = none)
    {dr₂ : DR} (hn' : newDagReader net' t' nd = .ok dr₂) {ks : List Nat} (hk : ∀ k ∈ ks, 0 < k) {rs : List Res} {r : Res}
    (h : dr₂.run net' (ks.map .read) = (rs ++ [r], dr')) (hrs : ∀ x ∈ rs, x.err = none ∨ x.err = some .notFound) (he' : r.err = some .eof)
    (hl : contentLen dr.root < 2 ^ 63) : ((rs ++ [r]).map Res.bytes).flatten = (dr.writeTo net w).1.bytes := by
  obtain ⟨x, c, h1, h2, h3⟩ := C122_writeTo hn hw he
  obtain ⟨y, c', h4, h5, h6⟩ := C122_reads hn' hk h hrs he'
  obtain rfl := opens_unique h1 h4
  rw [h2] at h5; cases h5
  have h7 := opens_unique (open_conv net nd t dr hn).1 h1
  rw [h7, contentLen_eq h2] at hl
  rw [h6 hl, h3 hl]

/-- C122: if a leaf cannot be read as file data, then `WriteTo` reports an error, whatever can be fetched. -/
theorem C122_refuses (hn : newDagReader net t nd = .ok dr) (ho : Opens nd x) (hc : content x = none) {w : Writer} (hw : goodWriter w) : (dr.writeTo net w).1.err ≠ none := by
  intro he
  obtain ⟨y, c, h1, h2, _⟩ := C122_writeTo hn hw he
  rw [← opens_unique ho h1, hc] at h2
  cases h2

section Examples

/-- A file whose recorded sizes are all wrong, below a metadata node. -/
def exLying : Node := .proto (mustMarshal { typ := some TMetadata }) [makeLink [] (bad TFile 7 none [9, 0, 4] [badLeaf 5 [1, 2], badLeaf 0 [3]])] .v0

example : ∃ dr, newDagReader goodNet 0 exLying = .ok dr ∧ (dr.writeTo goodNet (fun _ => none)).1 = { bytes := [1, 2, 3], n := 3 } ∧
    ∃ x c, Opens exLying x ∧ content x = some c := by
  have h : (match newDagReader goodNet 0 exLying with
    | .ok dr => decide ((dr.writeTo goodNet (fun _ => none)).1 = { bytes := [1, 2, 3], n := 3 })
    | _ => false) = true := by decide +kernel
  split at h
  · next dr hd =>
    have h1 := of_decide_eq_true h
    obtain ⟨x, c, h2, h3, _⟩ := C122_writeTo hd (fun _ => rfl) (by rw [h1])
    exact ⟨dr, hd, h1, x, c, h2, h3⟩
  · cases h

/-- A network that does not answer the third request. -/
def exGap : Net := fun t _ => t != 2

example : ∃ dr, newDagReader exGap 0 exLying = .ok dr ∧
    (dr.run exGap ([2, 1, 1, 1].map .read)).1.map (fun r => (r.bytes, r.err)) = [([1, 2], none), ([], some .notFound), ([3], none), ([], some .eof)] := by
  have h : (match newDagReader exGap 0 exLying with
    | .ok dr => decide ((dr.run exGap ([2, 1, 1, 1].map .read)).1.map (fun r => (r.bytes, r.err)) = [([1, 2], none), ([], some .notFound), ([3], none), ([], some .eof)])
    | _ => false) = true := by decide +kernel
  split at h
  · next dr hd => exact ⟨dr, hd, of_decide_eq_true h⟩
  · cases h

/-- Without the condition on the errors it would be false: the reader goes on behind a leaf it could not read, and comes to the end of a file that has no content. -/
theorem C122_skips : content exHalf = none ∧ ∃ dr, newDagReader goodNet 0 exHalf = .ok dr ∧
    (dr.run goodNet ([1, 1, 1].map .read)).1.map (fun r => (r.bytes, r.err)) = [([1], none), ([], some .incorrectlyFormatted), ([], some .eof)] := by
  refine ⟨by decide +kernel, ?_⟩
  have h : (match newDagReader goodNet 0 exHalf with
    | .ok dr => decide ((dr.run goodNet ([1, 1, 1].map .read)).1.map (fun r => (r.bytes, r.err)) = [([1], none), ([], some .incorrectlyFormatted), ([], some .eof)])
    | _ => false) = true := by decide +kernel
  split at h
  · next dr hd => exact ⟨dr, hd, of_decide_eq_true h⟩
  · cases h

end Examples

end Unixfs.Props
