import Verif.Props.Range
import Verif.Props.Lengthen
import Verif.Spec.Kept

/-!
# Files kept in a store (C108)

`Kept S n c grow` (`Verif/Spec/Kept`): `n` was imported and changed in any number of sessions, in which `S` was
stored; `c` is what a byte array would hold.
-/

namespace Unixfs.Props
open Unixfs Unixfs.Spec Unixfs.Reader Unixfs.Import Unixfs.Mod

variable {S : List Node} {n : Node} {c : Bytes} {grow : Bool}

theorem mem_nodesOf {db : DB} {x : Node} : x ∈ nodesOf db ↔ Stored db x := by
  unfold nodesOf Stored; rw [List.mem_map]

theorem not_outside {env : Env} (hsp : SplitOK env) {ops : List MOp} {rs : List MRes} (h : List.Forall₂ Fine ops rs) : ∀ r ∈ rs, ¬OutsideFailure env r := by
  induction h with
  | nil => simp
  | cons h _ ih =>
    intro r hr
    rcases List.mem_cons.mp hr with rfl | hr
    · rintro (⟨e, _⟩ | ⟨e, _⟩ | ⟨b, e, he, hs⟩ | ⟨e, _⟩)
      · rcases h.1 with h | ⟨h, _⟩ <;> rw [h] at e <;> cases e
      · rcases h.1 with h | ⟨h, _⟩ <;> rw [h] at e <;> cases e
      · rcases h.1 with h | ⟨h, _⟩ <;> rw [h] at he <;> cases he
        exact (hsp b).2 hs
      · rcases h.1 with h | ⟨h, _⟩ <;> rw [h] at e <;> cases e
    · exact ih r hr

theorem careful_mono {g g' : Prop} (hg : g → g') {f : File} {t : Track} {op : MOp} (h : Careful g f t op) : Careful g' f t op := by
  cases op with
  | write b => exact ⟨h.1, h.2.1, h.2.2.imp hg id⟩
  | writeAt b off => exact ⟨h.1, h.2.1, h.2.2.1, h.2.2.2.1, h.2.2.2.2.imp hg id⟩
  | seek off w => obtain ⟨h1, p, h2, h3, h4⟩ := h; exact ⟨h1, p, h2, h3, h4.imp id (fun x => ⟨hg x.1, x.2⟩)⟩
  | truncate s => exact ⟨h.1, h.2.1, h.2.2.imp id hg⟩
  | _ => exact h

theorem carefulRun_mono {g g' : Prop} (hg : g → g') : ∀ {ops : List MOp} {f : File} {t : Track}, CarefulRun g f t ops → CarefulRun g' f t ops
  | [], _, _, _ => trivial
  | _ :: _, _, _, h => ⟨careful_mono hg h.1, carefulRun_mono hg h.2⟩

theorem carefulRun_node {g : Prop} : ∀ {ops : List MOp} {f : File} {t : Track}, CarefulRun g f t ops → CarefulRun g f t (ops ++ [.getNode])
  | [], _, _, _ => ⟨trivial, trivial⟩
  | _ :: _, _, _, h => ⟨h.1, carefulRun_node h.2⟩

theorem run_after {fails : MRes → Prop} {f x : File} {ops : List MOp} {rs : List MRes} {e : Option File} (h : FileRun fails f ops rs e) (he : e = some x) : x = f.after ops := by
  induction h with
  | nil f => cases he; rfl
  | cons h t ih => rw [ih he, File.after, File.after, List.foldl_cons, h.next_eq]
  | fail h => cases he

/-- The node that `GetNode` gives is the modifier's. -/
theorem last_cur {env : Env} : ∀ (ops : List MOp) (dm : DM) {n : Node}, (dm.run env (ops ++ [.getNode])).1.getLast? = some { node := some n } →
    (dm.run env (ops ++ [.getNode])).2.cur = n ∧ (dm.run env (ops ++ [.getNode])).2.buf = none := by
  intro ops
  induction ops with
  | nil =>
    intro dm n h
    simp only [List.nil_append, DM.run, List.getLast?_singleton, Option.some.injEq] at h ⊢
    exact getNode_inv h
  | cons op ops ih =>
    intro dm n h
    simp only [List.cons_append, DM.run] at h ⊢
    refine ih _ ?_
    rw [List.getLast?_cons] at h
    cases hl : ((dm.step env op).2.run env (ops ++ [.getNode])).1.getLast? with
    | some r => rw [hl] at h; exact h
    | none =>
      rw [List.getLast?_eq_none_iff] at hl
      cases ops <;> simp [DM.run] at hl

/-- What is true of kept files. -/
theorem kept_facts (h : Kept S n c grow) : SizesTrue n ∧ content n = some c ∧ c.length < 2 ^ 63 ∧ (grow = true → Ext n) ∧ ∀ x, Reach n x → x ∈ S := by
  induction h with
  | empty =>
    have hu : Pb.Data.unmarshal (filePBData none 0) = .ok { typ := some TFile, filesize := some 0 } := by decide +kernel
    refine ⟨⟨_, hu, by decide, fun h => absurd rfl h, rfl, by decide +kernel, trivial⟩, by decide +kernel, by decide, fun _ => ?_, fun x hx => ?_⟩
    · show Growable _ (.proto _ _ _)
      simp only [Growable, GrowableFrom, and_true]
      exact ⟨_, hu, rfl⟩
    · cases hx with
      | refl => simp
      | step hl _ => cases hl
  | balanced hf h2 hl h =>
    refine ⟨C08_balanced_sizes hf h2 h, C06_balanced_content hf h2 h, hl, fun hg => ?_, fun x hx => mem_nodesOf.mpr (C11_balanced_stored hf h2 h x hx)⟩
    have := of_decide_eq_true hg
    exact C32_balanced hf h2 this.1 this.2 h
  | trickle hf h1 hl h =>
    exact ⟨C08_trickle_sizes hf h1 h, C07_trickle_content hf h1 h, hl, fun hg => C32_trickle hf h1 (of_decide_eq_true hg) h, fun x hx => mem_nodesOf.mpr (C11_trickle_stored hf h1 h x hx)⟩
  | @append S base c p path chunks fin budget db get fuel h n db' _ hf hm hl hr ih =>
    obtain ⟨i1, i2, _, i4, i5⟩ := ih
    have h1 : 1 ≤ p.maxlinks := by omega
    have hg : Growable p.maxlinks base := by rw [hm]; exact i4 rfl
    have ha := growable_appendable hg
    refine ⟨C17_append_sizes hf h1 i1 ha hr, C16_append_content hf h1 i1 ha i2 hr, hl, fun _ => ?_, fun x hx => ?_⟩
    · have := C16_append_growable hf h1 i1 hg hr
      rw [hm] at this; exact this
    · simp only [List.mem_append, List.mem_singleton]
      cases hx with
      | refl => exact .inr rfl
      | step hl' hx' =>
        rcases C58_append_stored hf h1 i1 ha hr _ hl' x hx' with h | h
        · exact .inl (.inl (i5 x h))
        · exact .inl (.inr (mem_nodesOf.mpr h))
  | @session S root c grow env ops n _ hsp hcr hfine hlast ih =>
    obtain ⟨i1, i2, i3, i4, i5⟩ := ih
    obtain ⟨dm, e, hS⟩ := new_sim i1 i2 i3
    obtain ⟨x, hrun, hsim⟩ := run_sim hsp _ hS (carefulRun_node (carefulRun_mono i4 hcr))
    have hno := not_outside hsp hfine
    simp only [results, storedBy, e] at hno hlast ⊢
    obtain ⟨x', rfl⟩ := hrun.whole hno
    obtain ⟨t, f, hR, hV, _⟩ := hsim x' rfl
    have hx := run_after hrun rfl
    have hd : ((⟨c, 0⟩ : File).after (ops ++ [.getNode])) = (⟨c, 0⟩ : File).after ops := by
      rw [File.after, File.after, List.foldl_append]; rfl
    rw [hd] at hx
    obtain ⟨hcur, hbuf⟩ := last_cur ops dm hlast
    have hb : f.buf = none := by rw [← hR.base.buf]; exact hbuf
    have hfc : f.c = ((⟨c, 0⟩ : File).after ops).data := by
      rw [← hx, ← hV.data]; unfold F.flush; rw [hb]
    rw [← hcur]
    refine ⟨hR.base.sizes, by rw [← hfc]; exact hR.base.cont, by rw [← hfc]; exact hR.base.lenc, fun hg => hR.base.grow (i4 hg), fun y hy => ?_⟩
    rcases hR.base.store y hy with h | h
    · exact List.mem_append_left _ (i5 y h)
    · exact List.mem_append_right _ h
  | more _ hs ih => exact ⟨ih.1, ih.2.1, ih.2.2.1, ih.2.2.2.1, fun x hx => hs x (ih.2.2.2.2 x hx)⟩

/-- C108: a file that was kept in a store holds what a byte array would hold after the same calls, with the sizes
that this implies, and every block of it is in the store. -/
theorem C108_kept (h : Kept S n c grow) : content n = some c ∧ SizesTrue n ∧ ∀ x, Reach n x → x ∈ S :=
  have h := kept_facts h; ⟨h.2.1, h.1, h.2.2.2.2⟩

/-- C108: such a file is read back from its store, by every history of reads, seeks and copies, as this byte
array. The DAG service need not have any other block. -/
theorem C108_read_back (h : Kept S n c grow) (net : Net) (t : Nat) (hn : Serves net t (· ∈ S)) (ops : List ROp) (hg : GoodWriters ops) :
    ∃ dr, newDagReader net t n = .ok dr ∧ dr.size.toNat = c.length ∧ ∃ q, FlatRun c 0 ops (dr.run net ops).1 q := by
  obtain ⟨h1, h2, h3, _, h5⟩ := kept_facts h
  exact read_back h1 h2 h3 (fun u hu y hy => hn u hu y (h5 y hy)) ops hg

/-- C108: a session on such a file fails, if at all, for a reason outside the modifier; up to there its
results are those of a file. -/
theorem C108_session {env : Env} {ops : List MOp} (h : Kept S n c grow) (hsp : SplitOK env) (hr : CarefulRun (grow = true) ⟨c, 0⟩ {} ops) :
    ∃ e, FileRun (OutsideFailure env) ⟨c, 0⟩ ops (results env n ops) e :=
  have h := kept_facts h
  C26_history_partial hsp h.1 h.2.1 h.2.2.1 (carefulRun_mono h.2.2.2.1 hr)

theorem step_fine {f f' : File} {op : MOp} {r : MRes} (h : FileStep f op r f') : Fine op r := by
  cases h with
  | read k h =>
    refine ⟨?_, Int.natCast_nonneg _⟩
    dsimp only
    split
    · exact .inr ⟨rfl, _, rfl⟩
    · exact .inl rfl
  | read0 e h => exact ⟨h.imp id (fun h => ⟨h.1, _, rfl⟩), Int.le_refl _⟩
  | hasChanges b => exact ⟨.inl rfl, by dsimp only; split <;> decide⟩
  | write b => exact ⟨.inl rfl, Int.natCast_nonneg _⟩
  | writeAt b off h => exact ⟨.inl rfl, Int.natCast_nonneg _⟩
  | seek off w t h => exact ⟨.inl rfl, Int.natCast_nonneg _⟩
  | size => exact ⟨.inl rfl, Int.natCast_nonneg _⟩
  | _ => exact ⟨.inl rfl, Int.le_refl _⟩

theorem run_fine {fails : MRes → Prop} {f : File} {ops : List MOp} {rs : List MRes} {e : Option File} (h : FileRun fails f ops rs e) (hn : ∀ r, ¬fails r) : List.Forall₂ Fine ops rs := by
  induction h with
  | nil f => exact .nil
  | cons h t ih => exact .cons (step_fine h) ih
  | fail h => exact absurd h (hn _)

theorem run_last {fails : MRes → Prop} {f : File} {ops : List MOp} {rs : List MRes} {e : Option File} (h : FileRun fails f (ops ++ [.getNode]) rs e) (hn : ∀ r, ¬fails r) :
    ∃ n, rs.getLast? = some { node := some n } := by
  induction ops generalizing f rs with
  | nil =>
    cases h with
    | cons h t =>
      cases t
      cases h with
      | getNode n _ _ => exact ⟨n, rfl⟩
    | fail h => exact absurd h (hn _)
  | cons op ops ih =>
    cases h with
    | cons h t =>
      obtain ⟨n, hn⟩ := ih t
      refine ⟨n, ?_⟩
      rw [List.getLast?_cons, hn]; rfl
    | fail h => exact absurd h (hn _)

/-- C108: with a DAG service that never fails and a splitter that reports no error and keeps to the block size limit,
a careful session on such a file succeeds and gives its next version. -/
theorem C108_next {env : Env} {ops : List MOp} (h : Kept S n c grow) (hnf : NeverFails env) (hsp : ∀ b, (env.split b).2 = none ∧ (env.split b).1.flatten = b ∧ AllFit (env.split b).1)
    (hr : CarefulRun (grow = true) ⟨c, 0⟩ {} ops) :
    ∃ n', (results env n (ops ++ [.getNode])).getLast? = some { node := some n' } ∧
      Kept (S ++ storedBy env n (ops ++ [.getNode])) n' ((⟨c, 0⟩ : File).after ops).data grow := by
  have hok : SplitOK env := fun b => ⟨fun _ => (hsp b).2.1, by rw [(hsp b).1]; simp⟩
  have hn : ∀ r, ¬OutsideFailure env r := by
    rintro r (⟨_, t, x, e⟩ | ⟨_, ⟨t, e⟩ | ⟨t, e⟩⟩ | ⟨b, e, _, e'⟩ | ⟨_, b, e⟩)
    · rw [hnf.1 t x] at e; cases e
    · rw [hnf.2.1 t] at e; cases e
    · exact e (hnf.2.2 t)
    · rw [(hsp b).1] at e'; cases e'
    · exact e (hsp b).2.2
  obtain ⟨e, hrun⟩ := C108_session h hok (carefulRun_node hr)
  obtain ⟨n', hl⟩ := run_last hrun hn
  exact ⟨n', hl, .session h hok hr (run_fine hrun hn) hl⟩

section Examples

/-- An empty file is written in one session, changed and cut off in a second one, after which it is read back. -/
example : ∃ S n, Kept S n [1, 9, 3] true ∧ ∀ (net : Net) (t : Nat), Serves net t (· ∈ S) →
    ∃ dr, newDagReader net t n = .ok dr ∧ dr.size.toNat = 3 ∧ ∃ q, FlatRun [1, 9, 3] 0 [.seek 1 0, .read 5] (dr.run net [.seek 1 0, .read 5]).1 q := by
  have hsp : ∀ b, (byteEnv.split b).2 = none ∧ (byteEnv.split b).1.flatten = b ∧ AllFit (byteEnv.split b).1 := by
    intro b
    refine ⟨rfl, (byteEnv_ok b).1 rfl, fun c hc => ?_⟩
    simp only [byteEnv, List.mem_map] at hc
    obtain ⟨x, _, rfl⟩ := hc
    simp
  have hnf : NeverFails byteEnv := ⟨fun _ _ => rfl, fun _ => rfl, fun _ => rfl⟩
  obtain ⟨n1, _, h1⟩ := C108_next (ops := [.write [1, 2, 3, 4]]) Kept.empty hnf hsp (by simp [CarefulRun, Careful])
  obtain ⟨n2, _, h2⟩ := C108_next (ops := [.seek 1 0, .write [9], .truncate 3]) h1 hnf hsp
    (by simp only [CarefulRun, Careful]; exact ⟨⟨by decide, 1, rfl, by decide, .inl (by decide)⟩, ⟨by decide, by decide, .inl trivial⟩, ⟨by decide, .inl rfl, .inl (by decide)⟩, trivial⟩)
  refine ⟨_, _, h2, fun net t hn => C108_read_back h2 net t hn _ ?_⟩
  intro w hw; simp at hw

end Examples

end Unixfs.Props
