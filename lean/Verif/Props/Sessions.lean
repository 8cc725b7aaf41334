import Verif.Props.Lengthen
import Verif.Spec.Sessions

/-!
# C106: a file that was edited in many sessions is the import of its bytes

The definitions in this file belong to statements; they model no code.
-/

namespace Unixfs.Import.Trickle

/-- The children of a left-filled tree. -/
theorem lg_of_parts {m : Nat} : ∀ (pre : List T) (last : T) (i : Nat), (∀ j t, pre[j]? = some t → TF m (kd m (i + j)) t) → TG m (kd m (i + pre.length)) last →
    LG m i (pre ++ [last]) False
  | [], last, i, _, hl => ⟨by simpa using hl, False.elim⟩
  | t :: pre, last, i, h, hl => by
    have h0 := h 0 t rfl
    have ih := lg_of_parts pre last (i + 1) (fun j x hx => by have := h (j + 1) x (by simpa using hx); rwa [show i + (j + 1) = i + 1 + j by omega] at this)
      (by rwa [show i + 1 + pre.length = i + (t :: pre).length by simp; omega])
    cases pre with
    | nil => exact ⟨h0, ih⟩
    | cons y pre => exact ⟨h0, ih⟩

theorem TG.lg {m D : Nat} {ts : List T} (h : TG m D (.node ts)) : LG m 0 ts False := by
  generalize ht : T.node ts = t at h
  cases h with
  | leaf => cases ht
  | node D pre last hl hf hlast =>
    cases ht
    exact lg_of_parts pre last 0 (fun j t h => by simpa using hf j t h) (by simpa using hlast)

end Unixfs.Import.Trickle

namespace Unixfs.Props
open Unixfs Unixfs.Mod Unixfs.Import Unixfs.Spec

theorem last_node {rs : List MRes} {n m : Node} (h1 : rs.getLast? = some { node := some n }) (h2 : rs.getLast? = some { node := some m }) : n = m := by
  rw [h1] at h2; cases h2; rfl

/-- The tree of an edited file. -/
theorem sessions_tree {p : Params} (hp : AsModified p) {n : Node} {chunks : List Bytes} (h : InSessions p n chunks) :
    ∃ ts, n = (T.node ts).toNode ⟨p.rawLeaves, p.cidBuilder, TRaw⟩ ∧ T.chunksL ts = chunks ∧ Trickle.LG p.maxlinks 0 ts False ∧ AllFit chunks := by
  have hm : p.maxlinks = defaultLinksPerBlock := hp.1
  have h1 : 1 ≤ p.maxlinks := by rw [hm]; decide
  have hok := cfgOK_raw p.rawLeaves p.cidBuilder
  have lim : ∀ {ts : List T}, AllFit (T.chunksL ts) → (T.node ts).Lim := fun h => T.lim_of_chunks _ h
  induction h with
  | layout hf hr =>
    obtain ⟨ts, e1, e2, e3⟩ := appendedAlike_tree h1 (.layout hf hr)
    exact ⟨ts, e1, e2, e3, (C12_trickle_no_truncation hf h1 hr).2⟩
  | @append base old path new fin budget db g fuel h n db' hb hf hcase hr ih =>
    obtain ⟨ts, hroot, hch, hl, hfit⟩ := ih
    obtain ⟨hi, hpd⟩ := Fresh.facts_get hf g
    obtain ⟨_, _, hmd, _, _, hse, _⟩ := Fresh.facts hf
    have hlim := lim (hch ▸ hfit)
    obtain ⟨hfin, hnew⟩ := C57_append_no_truncation hf h1 (hroot ▸ sizesTrue_toNode _ hok _ hlim) (hroot ▸ growable_appendable (hl.growable _)) hr
    have hcfg : ({ db with canGet := g } : DB).cfg TRaw = ⟨p.rawLeaves, p.cidBuilder, TRaw⟩ := Fresh.cfg hf TRaw
    rw [hroot, ← hcfg] at hr
    obtain ⟨us, e1, e2, e3⟩ := Trickle.append_same (m := p.maxlinks) (db := { db with canGet := g }) (by omega) hmd hi (hse.trans hfin) hl (by
      rw [hpd, hch]
      rcases hcase with h | h | h
      · exact .inl (List.length_eq_zero_iff.mp h)
      · exact .inr (.inl h)
      · exact .inr (.inr h)) hr
    exact ⟨us, by rw [e1, hcfg], by rw [e2, hch, hpd], e3, fun c hc => by rcases List.mem_append.mp hc with h | h; exacts [hfit c h, hnew c h]⟩
  | @overwrite env root chunks ops n chunks' _ hsp hlen hr hT hfine hlast hcut ih =>
    obtain ⟨ts, rfl, rfl, hl, hfit⟩ := ih
    have hlim := lim hfit
    obtain ⟨rs, n', t', e1, hed, hn, hc⟩ := recut_inside (env := env) hsp hlim hok ops hlen hr hT hfine
    have := last_node (m := n') hlast (by rw [e1]; simp)
    subst this
    obtain ⟨ts', rfl⟩ : ∃ ts', t' = .node ts' := by
      cases t' with
      | leaf d => have := hed.1; cases this
      | node ts1 => exact ⟨ts1, rfl⟩
    have hcc : T.chunksL ts' = chunks' := chunks_inj (by rw [hcut.1]; exact hed.lens.symm) (by rw [hcut.2]; exact hc)
    exact ⟨ts', hn, hcc, Trickle.LG.of_same (by simpa only [T.Same] using hed.same) hl, hcc ▸ hed.lim (T.Lim.chunks hlim)⟩
  | @truncate env root chunks ops s n chunks' _ hsp hlen hr hT h0 hs hfine hlast hcut ih =>
    obtain ⟨ts, rfl, rfl, hl, hfit⟩ := ih
    have hlim := lim hfit
    obtain ⟨n', t1, t', e1, hed, hct, hn, hxl, hfl⟩ := shorten_inside (env := env) hsp hlim hok (.inr rfl) ops s h0 hs hlen hr hT hfine
    have := last_node hlast e1
    subst this
    obtain ⟨pre, x, post, k, c1, c2⟩ := hct.chunks
    have hcc : t'.chunks = chunks' := cutShort_count (c := ((⟨(T.chunksL ts).flatten, 0⟩ : File).after ops).data) (by have := hxl; simp only [T.chunks] at this; omega) (by rw [← hed.lens]; rfl) c1 c2 hfl hcut
    have hne : ts ≠ [] := by
      rintro rfl
      simp [T.chunksL] at hs
    have g1 := hl.root hne (D := ts.length) (by omega)
    have g4 := Trickle.TG.cut (by omega) hct (g1.of_same hed.same)
    obtain ⟨ts', rfl⟩ : ∃ ts', t' = .node ts' := by
      cases t' with
      | leaf d => cases g4
      | node ts1 => exact ⟨ts1, rfl⟩
    refine ⟨ts', hn, hcc, g4.lg, fun c hc => ?_⟩
    have hb := hed.lim (T.Lim.chunks hlim)
    rw [← hcc, c2] at hc
    rw [c1] at hb
    rcases List.mem_append.mp hc with h | h
    · exact hb c (by simp [h])
    · rw [List.mem_singleton.mp h]
      exact le_trans (by rw [List.length_take]; omega) (hb x (by simp))
  | @extend env root chunks ops off b n chunks' _ hsp hnew hr hT h0 hoff hb hmax hadd hfine hlast hcut ih =>
    obtain ⟨ts, rfl, rfl, hl, hfit⟩ := ih
    have hlim := lim hfit
    obtain ⟨n', ts1, us, e1, e2, e3, e4, e5, e6⟩ := lengthen_inside (env := env) hp hsp hlim (hm ▸ hl) ops off b h0 hoff hb hmax hr hT (hm ▸ hadd) hfine
    have := last_node hlast e1
    subst this
    have hcc : T.chunksL ts1 = chunks' := chunks_inj (by rw [hcut.1]; exact e2.lens.symm) (by rw [e3, hcut.2])
    refine ⟨us, e4, by rw [e5, hcc], hm ▸ e6, fun c hc => ?_⟩
    rcases List.mem_append.mp hc with h | h
    · exact e2.lim (T.Lim.chunks hlim) c (by simp only [T.chunks]; rw [hcc]; exact h)
    · exact hnew c h

section
variable {p : Params} {n root : Node} {chunks : List Bytes} {path : Option Bytes} {fin : Option Err} {budget : Option Nat} {db db' : DB} {fuel : Nat}

/-- C106: after any number of edits, every import of the present chunks gives the present DAG. -/
theorem C106_sessions (hp : AsModified p) (h : InSessions p n chunks) (hf : Fresh p path chunks fin budget db) (hr : Trickle.layout fuel db = .ok (root, db')) : root = n := by
  obtain ⟨ts, e1, e2, e3, -⟩ := sessions_tree hp h
  obtain ⟨us, g1, g2, g3, -⟩ := sessions_tree hp (.layout hf hr)
  have := (e3.same g3 (by rw [e2, g2])).ext (by rw [e2, g2])
  rw [e1, g1, this]

/-- C106: such an import succeeds, if the store works; and the file holds the bytes of the chunks. -/
theorem C106_import (hp : AsModified p) (h : InSessions p n chunks) :
    content n = some chunks.flatten ∧ ∀ path db fuel, Fresh p path chunks none none db → chunks.length < fuel → ∃ db', Trickle.layout fuel db = .ok (n, db') := by
  obtain ⟨ts, e1, e2, e3, e4⟩ := sessions_tree hp h
  refine ⟨?_, fun path db fuel hf hfu => ?_⟩
  · rw [e1, content_toNode _ (cfgOK_raw _ _) _ (T.lim_of_chunks _ (by simp only [T.chunks]; rw [e2]; exact e4)), ← e2]; rfl
  · obtain ⟨root, db', hr⟩ := C13_trickle_terminates hf (by rw [hp.1]; decide) e4 hfu
    have := C106_sessions hp h hf hr
    subst this
    exact ⟨db', hr⟩

/-- C106: two files edited in different ways to the same chunks are the same DAG. -/
theorem C106_same {m : Node} (hp : AsModified p) (h : InSessions p n chunks) (h' : InSessions p m chunks) : n = m := by
  obtain ⟨ts, e1, e2, e3, -⟩ := sessions_tree hp h
  obtain ⟨us, g1, g2, g3, -⟩ := sessions_tree hp h'
  have := (e3.same g3 (by rw [e2, g2])).ext (by rw [e2, g2])
  rw [e1, g1, this]

end

section Examples

theorem long_layout (raw : Bool) (b : Option Builder) {chunks : List Bytes} (hfit : AllFit chunks) (hl : chunks.length < 9) :
    ∃ db', Trickle.layout 9 (longDB raw b chunks) = .ok (longTrickle raw b chunks, db') := by
  obtain ⟨root, db', h⟩ := C13_trickle_terminates (p := { maxlinks := 174, rawLeaves := raw, cidBuilder := b }) (path := none) (db := longDB raw b chunks) ⟨_, rfl, rfl⟩ (by show 1 ≤ 174; decide) hfit hl
  exact ⟨db', by rw [longTrickle, h]⟩

/-- The file of the example below is appended to. -/
def longAppend (n : Node) (chunks : List Bytes) : Except Err (Node × DB) := Trickle.append 9 9 n { longDB true (some longBuilder) chunks with canGet := fun _ => true }

/-- A file is imported, changed and lengthened by one modifier, appended to, shortened by another modifier and
changed by a third. It is the import of what it holds then. -/
theorem exSessions : InSessions { maxlinks := 174, rawLeaves := true, cidBuilder := some longBuilder }
    (longTrickle true (some longBuilder) [[1, 21], [30]]) [[1, 21], [30]] := by
  have hsplit : ∀ c : Bytes, c ∈ (byteEnv.split (([40, 50, 60] : Bytes).drop (([[1, 2], [3, 4]] : List Bytes).flatten.length - (3 : Int64).toInt.toNat))).1 → c.length ≤ blockSizeLimit := by decide +kernel
  obtain ⟨db0, hr0⟩ := long_layout true (some longBuilder) (chunks := [[1, 2], [3, 4]]) (by unfold AllFit; decide) (by decide)
  have h0 : InSessions { maxlinks := 174, rawLeaves := true, cidBuilder := some longBuilder } (longTrickle true (some longBuilder) [[1, 2], [3, 4]]) [[1, 2], [3, 4]] :=
    .layout (path := none) (fin := none) (budget := none) ⟨_, rfl, rfl⟩ hr0
  have h1 := InSessions.extend (env := byteEnv) (ops := [.writeAt [20] 1]) (off := 3) (b := [40, 50, 60]) (chunks' := [[1, 20], [3, 40]])
    (n := longTrickle true (some longBuilder) [[1, 20], [3, 40], [50], [60]]) h0 byteEnv_ok hsplit (by simp [CarefulRun, Careful]) (by simp)
    (by decide) (by decide) (by decide) (by decide) (.inr (.inl ⟨by decide, by decide⟩)) (by decide +kernel) (by decide +kernel) ⟨rfl, rfl⟩
  have h2 : InSessions { maxlinks := 174, rawLeaves := true, cidBuilder := some longBuilder } (longTrickle true (some longBuilder) [[1, 20], [3, 40], [50], [60], [7, 8]])
      [[1, 20], [3, 40], [50], [60], [7, 8]] := by
    have e : (longAppend (longTrickle true (some longBuilder) [[1, 20], [3, 40], [50], [60]]) [[7, 8]]).map Prod.fst =
        .ok (longTrickle true (some longBuilder) [[1, 20], [3, 40], [50], [60], [7, 8]]) := by decide +kernel
    cases h : longAppend (longTrickle true (some longBuilder) [[1, 20], [3, 40], [50], [60]]) [[7, 8]] with
    | error x => rw [h] at e; cases e
    | ok r =>
      obtain ⟨n, db'⟩ := r
      rw [h] at e
      have e' : n = longTrickle true (some longBuilder) [[1, 20], [3, 40], [50], [60], [7, 8]] := by injection e
      rw [← e']
      exact InSessions.append (path := none) (new := [[7, 8]]) (fin := none) (budget := none) (db := longDB true (some longBuilder) [[7, 8]]) h1 ⟨_, rfl, rfl⟩
        (.inr (.inl ⟨by decide, by decide⟩)) h
  have h3 : InSessions { maxlinks := 174, rawLeaves := true, cidBuilder := some longBuilder } (longTrickle true (some longBuilder) [[1, 20], [3]]) [[1, 20], [3]] :=
    InSessions.truncate (env := byteEnv) (ops := []) (s := 3) h2 byteEnv_ok (by decide) trivial (by simp) (by decide) (by decide) (by decide +kernel) (by decide +kernel)
      ⟨rfl, [[1, 20]], [3, 40], [[50], [60], [7, 8]], 1, rfl, by decide, by decide, rfl⟩
  exact InSessions.overwrite (env := byteEnv) (ops := [.seek 1 0, .write [21, 30]]) h3 byteEnv_ok (by decide) (by simp only [CarefulRun, Careful]; exact ⟨⟨by decide, 1, rfl, by decide, by decide⟩, by decide, trivial⟩) (by simp) (by decide +kernel) (by decide +kernel)
    ⟨rfl, rfl⟩

end Examples

end Unixfs.Props
