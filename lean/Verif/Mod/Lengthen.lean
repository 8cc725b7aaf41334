import Verif.Import.AppendSame
import Verif.Mod.Shorten
import Verif.Mod.FileLemmas
import Verif.Spec.AppendSame
import Verif.Props.Append

/-!
# A write beyond the end of an imported file (C103)

The definitions in this file belong to proofs; they model no code.
-/

namespace Unixfs.Import.Trickle
open Unixfs Unixfs.Spec

theorem LG.of_same {m : Nat} : ∀ {i : Nat} {ts ts' : List T} {more : Prop}, T.SameL ts ts' → LG m i ts more → LG m i ts' more
  | _, [], ts', _, hs, _ => by
    cases ts' with
    | nil => trivial
    | cons t' ts' => simp only [T.SameL] at hs
  | _, [t], ts', _, hs, h => by
    match ts', hs with
    | [], hs => simp only [T.SameL] at hs
    | [t'], hs =>
      simp only [T.SameL, and_true] at hs
      exact ⟨h.1.of_same hs, fun hm => (h.2 hm).of_same hs⟩
    | t' :: t'' :: ts', hs => simp only [T.SameL, and_false] at hs
  | i, t :: u :: ts, ts', more, hs, h => by
    match ts', hs with
    | [], hs => simp only [T.SameL] at hs
    | [t'], hs => simp only [T.SameL, and_false] at hs
    | t' :: u' :: ts', hs =>
      rw [T.SameL] at hs
      exact ⟨h.1.of_same hs.1, LG.of_same hs.2 h.2⟩

theorem growable_children {m : Nat} (c : Cfg) {ts : List T} (h : ∀ i t, ts[i]? = some t → m ≤ i → Growable m (t.toNode c)) :
    Growable m ((T.node ts).toNode c) := by
  simp only [T.toNode, Growable]
  refine ⟨⟨_, bytes_addSizes _, rfl⟩, ?_⟩
  have : ∀ (pre suf : List T), ts = pre ++ suf → GrowableFrom m pre.length (T.toLinks c suf) := by
    intro pre suf
    induction suf generalizing pre with
    | nil => intro _; trivial
    | cons x suf ih2 =>
      intro he
      refine ⟨fun hm => h pre.length x (by simp [he]) hm, ?_⟩
      have := ih2 (pre ++ [x]) (by simp [he])
      simpa using this
  exact this [] ts rfl

theorem kd_pos {m i : Nat} (h : m ≤ i) : 0 < kd m i := by unfold kd; rw [if_neg (by omega)]; exact Nat.succ_pos _

theorem TF.growable {m : Nat} (c : Cfg) {D : Nat} {t : T} (h : TF m D t) : 0 < D → Growable m (t.toNode c) := by
  induction h with
  | leaf d => intro h; omega
  | node D ts hl h ih => exact fun _ => growable_children c (fun i t hi hm => ih i t hi (kd_pos hm))

/-- A left-filled tree can be extended. -/
theorem TG.growable {m : Nat} (c : Cfg) {D : Nat} {t : T} (h : TG m D t) : 0 < D → Growable m (t.toNode c) := by
  induction h with
  | leaf d => intro h; omega
  | node D pre last hl h hlast ih =>
    refine fun _ => growable_children c (fun i t hi hm => ?_)
    rw [List.getElem?_append] at hi
    split at hi
    · exact (h i t hi).growable c (kd_pos hm)
    · rename_i hlt
      have : i = pre.length := by
        by_contra hc
        rw [List.getElem?_eq_none (by simp; omega)] at hi
        cases hi
      subst this
      simp at hi
      subst hi
      exact ih (kd_pos hm)

theorem LG.growable {m : Nat} (c : Cfg) {ts : List T} (h : LG m 0 ts False) : Growable m ((T.node ts).toNode c) := by
  by_cases hne : ts = []
  · subst hne
    exact growable_children c (by simp)
  · exact (h.root hne (Nat.le_refl _)).growable c (by omega)

end Unixfs.Import.Trickle

namespace Unixfs.Mod
open Unixfs Unixfs.Import Unixfs.Spec

/-- The two configurations make the same nodes. -/
theorem toNode_congr {c c' : Cfg} (hp : c.pbBuilder = c'.pbBuilder) (hl : ∀ d, c.leafNode d = c'.leafNode d) :
    (∀ t : T, t.toNode c = t.toNode c') ∧ ∀ ts : List T, T.toLinks c ts = T.toLinks c' ts := by
  refine ⟨fun t => ?_, fun ts => ?_⟩
  · exact T.rec (motive_1 := fun t => t.toNode c = t.toNode c') (motive_2 := fun ts => T.toLinks c ts = T.toLinks c' ts)
      (fun d => hl d) (fun ts ih => by simp only [T.toNode, hp, ih]) rfl (fun t ts h1 h2 => by simp only [T.toLinks, h1, h2]) t
  · exact T.rec_1 (motive_1 := fun t => t.toNode c = t.toNode c') (motive_2 := fun ts => T.toLinks c ts = T.toLinks c' ts)
      (fun d => hl d) (fun ts ih => by simp only [T.toNode, hp, ih]) rfl (fun t ts h1 h2 => by simp only [T.toLinks, h1, h2]) ts

variable {env : Env} {root : Node} {dm dm' : DM} {f : F} {c : Cfg}

/-- `appendData` on a left-filled tree. -/
theorem appendData_tree {ts : List T} {new : List Bytes} {fin : Option Err} {n : Node} {svc : Svc} (hlim : (T.node ts).Lim)
    (hok : c.OK) (hcur : dm.cur = (T.node ts).toNode c) (hc : ∀ t : T, t.toNode c = t.toNode ⟨dm.rawLeaves, some dm.pfx, TRaw⟩)
    (hlg : Trickle.LG defaultLinksPerBlock 0 ts False) (hadd : AddsAlike defaultLinksPerBlock (T.chunksL ts).length new.length)
    (h : dm.appendData env new fin = (.ok n, svc)) :
    ∃ us, n = (T.node us).toNode c ∧ T.chunksL us = T.chunksL ts ++ new ∧ Trickle.LG defaultLinksPerBlock 0 us False := by
  have hg : Growable defaultLinksPerBlock dm.cur := by rw [hcur]; exact hlg.growable c
  have hs := appendData_spec env dm new fin (c := (T.chunksL ts).flatten) (by rw [hcur]; exact sizesTrue_toNode c hok _ hlim)
    (by rw [hcur]; exact content_toNode c hok _ hlim) hg
  rw [h] at hs
  obtain ⟨-, hfin, -⟩ := hs
  unfold DM.appendData at h
  rw [hcur, T.toNode] at h
  simp only [Params.new, Bool.false_and, Bool.false_eq_true, if_false] at h
  split at h
  · cases h
  · rename_i n' db' hr
    cases h
    rw [← T.toNode, hc] at hr
    have hcfg : ({ maxlinks := defaultLinksPerBlock, rawLeaves := dm.rawLeaves, cidBuilder := some dm.pfx, hasPath := !([] : Bytes).isEmpty, src := new, srcEnd := fin, addBudget := env.budget dm.svc.tick, canGet := env.get dm.svc.tick } : DB).Inv := by simp [DB.Inv]
    obtain ⟨us, e1, e2, e3⟩ := Trickle.append_same (m := defaultLinksPerBlock) (by decide) rfl hcfg hfin hlg (by
      show new = [] ∨ _
      rcases hadd with h | h | h
      · exact .inl (List.length_eq_zero_iff.mp h)
      · exact .inr (.inl h)
      · exact .inr (.inr h)) hr
    exact ⟨us, by rw [e1, hc]; rfl, e2, e3⟩

/-- A `Sync` that appends. -/
theorem sync_grown {ts : List T} {b : Bytes} {a : Unit} (hok : c.OK) (hlim : ∀ x ∈ T.chunksL ts, x.length ≤ blockSizeLimit)
    (h : R0 root False dm f) (hb : f.buf = some b) (hws : f.ws ≤ f.c.length) (hlen : f.c.length < f.ws + b.length)
    (hcur : dm.cur = (T.node ts).toNode c) (hc : ∀ t : T, t.toNode c = t.toNode ⟨dm.rawLeaves, some dm.pfx, TRaw⟩)
    (hlg : Trickle.LG defaultLinksPerBlock 0 ts False)
    (hadd : AddsAlike defaultLinksPerBlock (T.chunksL ts).length (env.split (b.drop (f.c.length - f.ws))).1.length)
    (hS : dm.sync env = (.ok a, dm')) :
    ∃ ts1 us, (T.node ts).Edit (T.node ts1) ∧ (T.chunksL ts1).flatten = (overlay f.c f.ws b).take f.c.length ∧
      dm'.cur = (T.node us).toNode c ∧ T.chunksL us = T.chunksL ts1 ++ (env.split (b.drop (f.c.length - f.ws))).1 ∧
      Trickle.LG defaultLinksPerBlock 0 us False ∧ dm'.buf = none := by
  have h1 := h.lenc
  have hdb : dm.buf = some b := by rw [h.buf, hb]
  have hlen' : (UInt64.ofNat f.c.length).toNat = f.c.length := ofNat_toNat (by omega)
  unfold DM.sync at hS
  rw [hdb] at hS
  simp only [fileSize_true h.sizes h.cont] at hS
  rw [if_neg (by rw [UInt64.lt_iff_toNat_lt, hlen', h.ws]; omega)] at hS
  unfold DM.syncModify at hS
  simp only [Option.getD_some] at hS
  have hM := modifyDag_spec env dm.cur dm.ws b dm.svc f.c h.sizes h.cont (by omega) (by rw [h.ws]; omega)
  split at hS
  · cases hS
  · next k x rest svc hm =>
    rw [hm] at hM
    have hrest : rest = b.drop (f.c.length - f.ws) := by
      rw [hM.rest]; simp only [writeInto]; rw [h.ws]
    have hcont := hM.cont
    rw [hcur] at hm
    obtain ⟨t2, ht2, e2⟩ := modifyDag_tree env c (.node ts) _ _ _ _ _ _ _ (T.lim_of_chunks _ hlim) hm
    obtain ⟨ts1, rfl⟩ : ∃ ts1, t2 = .node ts1 := by
      cases t2 with
      | leaf d => have := ht2.same; simp [T.Same] at this
      | node ts1 => exact ⟨ts1, rfl⟩
    have hlim1 : (T.node ts1).Lim := T.lim_of_chunks _ (ht2.lim hlim)
    have hflat : (T.chunksL ts1).flatten = (overlay f.c f.ws b).take f.c.length := by
      rw [e2, content_toNode c hok _ hlim1, Option.some.injEq, h.ws] at hcont
      rw [← writeInto_overlay _ _ _ hws, List.take_append_of_le_length (by rw [writeInto_length hws]),
        List.take_of_length_le (by rw [writeInto_length hws])]
      exact hcont
    have hlg1 : Trickle.LG defaultLinksPerBlock 0 ts1 False := Trickle.LG.of_same (by simpa only [T.Same] using ht2.same) hlg
    have hcnt : (T.chunksL ts1).length = (T.chunksL ts).length := by
      have := congrArg List.length ht2.lens
      simp only [List.length_map, T.chunks] at this
      exact this.symm
    split at hS
    · cases hS
    · next svc2 _ =>
      unfold DM.syncTail at hS
      simp only [hrest, Option.getD_some] at hS
      rw [if_neg (by simp only [List.isEmpty_iff, List.drop_eq_nil_iff]; omega)] at hS
      split at hS
      · cases hS
      · next n svc3 hA =>
        obtain ⟨us, u1, u2, u3⟩ := appendData_tree (dm := { dm with read := none, cur := k, buf := some (b.drop (f.c.length - f.ws)), svc := svc2 }) hlim1 hok e2 hc hlg1 (by rw [hcnt]; exact hadd) hA
        split at hS
        · cases hS
        · cases hS
          exact ⟨ts1, us, ht2, hflat, u1, u2, u3, rfl⟩

end Unixfs.Mod
