import Verif.Mod.Recut
import Verif.Props.Dedup
import Verif.Props.Edit

/-!
# C85: overwriting bytes of an imported file gives what importing the edited bytes gives

`CutAlike chunks c chunks'`: `chunks'` are the bytes `c`, cut at the same places as `chunks`.
-/

namespace Unixfs.Props
open Unixfs Unixfs.Mod Unixfs.Import Unixfs.Spec

/-- Any history of calls without `Truncate`, on a tree that can be extended. -/
theorem recut_any {env : Env} {c : Import.Cfg} {t : T} (hsp : SplitOK env) (hl : t.Lim) (hc : c.OK) (hg : Ext (t.toNode c)) (ops : List MOp)
    (hn : ∀ op ∈ ops, NonNeg op) (hT : ∀ op ∈ ops, ∀ s, op ≠ .truncate s) (hB : t.chunks.flatten.length + (ops.map reachOf).sum < 2 ^ 63)
    (hf : List.Forall₂ Fine (ops ++ [.getNode]) (results env (t.toNode c) (ops ++ [.getNode]))) :
    ∃ rs n b, results env (t.toNode c) (ops ++ [.getNode]) = rs ++ [{ node := some n }] ∧ content n = some b ∧
      (b.length = t.chunks.flatten.length → ∃ t', t.Edit t' ∧ n = t'.toNode c ∧ t'.chunks.flatten = b) := by
  have hlim := T.Lim.chunks hl
  obtain ⟨dm, e, hS⟩ := new_sim (sizesTrue_toNode c hc t hl) (content_toNode c hc t hl) (by omega)
  obtain ⟨f, hR, hV, _⟩ := hS
  simp only [results, e] at hf ⊢
  have hcur : dm.cur = t.toNode c := by
    unfold newDagModifier at e
    split at e <;> rename_i hT <;> cases e <;> exact hT.symm
  have hfc : f.c = t.chunks.flatten := by
    have := hR.base.cont
    rw [hcur, content_toNode c hc t hl, Option.some.injEq] at this
    exact this.symm
  have hW : WK (t.toNode c) t.chunks.flatten.length c t dm := by
    refine ⟨f, ⟨hR.base.sizes, hR.base.cont, hR.base.ws, hR.base.cw, hR.base.buf, hR.base.lenc, hR.base.lenw, hR.base.lencw, fun _ => hR.base.grow hg, hR.base.store⟩,
      ⟨by rw [hfc], by rw [hV.wp]; exact Nat.zero_le _, by rw [hV.pos]; exact Nat.zero_le _⟩, .inr ⟨by rw [hfc], t, .refl t, hcur⟩⟩
  have hW' := WK.run hsp hlim (ops ++ [.getNode]) hW (fun op h => by
      rcases List.mem_append.mp h with h | h
      · exact hn op h
      · rw [List.mem_singleton.mp h]; trivial)
    (fun op h => by
      rcases List.mem_append.mp h with h | h
      · exact hT op h
      · rw [List.mem_singleton.mp h]; simp) (by simpa [reachOf] using hB) hf
  obtain ⟨h1, h2⟩ := fine_append env _ _ _ hf
  have hW1 := WK.run hsp hlim ops hW hn hT hB h1
  obtain ⟨f1, hR1, hle1, _⟩ := hW1
  rw [run_append] at hW'
  simp only [DM.run] at hW' h2
  rcases h2 with _ | ⟨h2, _⟩
  obtain ⟨n, e2, hcn, _, hR2, _⟩ := getNode_any hsp hR1 hle1 h2
  have hn2 := (getNode_inv e2).1
  refine ⟨_, n, f1.flush.c, by rw [run_append]; simp only [DM.run]; rw [e2], hcn, fun hb => ?_⟩
  obtain ⟨f2, hR3, _, hk⟩ := hW'
  have hf2 : f2.c = f1.flush.c := by
    have := hR3.cont
    rw [hR2.cont, Option.some.injEq] at this
    exact this.symm
  rw [hf2, hn2] at hk
  rcases hk with hk | ⟨_, t', ht, hnt⟩
  · omega
  · refine ⟨t', ht, hnt, ?_⟩
    rw [hnt, content_toNode c hc t' (T.lim_of_chunks t' (ht.lim hlim)), Option.some.injEq] at hcn
    exact hcn

/-- Careful calls inside the file, on any tree. -/
theorem recut_inside {env : Env} {c : Import.Cfg} {t : T} (hsp : SplitOK env) (hl : t.Lim) (hc : c.OK) (ops : List MOp)
    (hlen : t.chunks.flatten.length < 2 ^ 63) (hr : CarefulRun False ⟨t.chunks.flatten, 0⟩ {} ops) (hT : ∀ op ∈ ops, ∀ s, op ≠ .truncate s)
    (hf : List.Forall₂ Fine (ops ++ [.getNode]) (results env (t.toNode c) (ops ++ [.getNode]))) :
    ∃ rs n t', results env (t.toNode c) (ops ++ [.getNode]) = rs ++ [{ node := some n }] ∧ t.Edit t' ∧ n = t'.toNode c ∧
      t'.chunks.flatten = ((⟨t.chunks.flatten, 0⟩ : File).after ops).data := by
  have hlim := T.Lim.chunks hl
  obtain ⟨dm, e, hS⟩ := new_sim (sizesTrue_toNode c hc t hl) (content_toNode c hc t hl) hlen
  simp only [results, e] at hf ⊢
  have hcur : dm.cur = t.toNode c := by
    unfold newDagModifier at e
    split at e <;> rename_i hT <;> cases e <;> exact hT.symm
  have hS' : Sim (t.toNode c) False dm ⟨t.chunks.flatten, 0⟩ {} := by
    obtain ⟨f, hR, hV, hgf⟩ := hS
    have hb : f.buf = none := by
      cases h : f.buf with
      | none => rfl
      | some b =>
        have := hV.dirty (by rw [h]; rfl)
        cases this
    exact ⟨f, ⟨⟨hR.base.sizes, hR.base.cont, hR.base.ws, hR.base.cw, hR.base.buf, hR.base.lenc, hR.base.lenw, hR.base.lencw, False.elim, hR.base.store⟩, hR.rd⟩, hV, .inr (.inl hb)⟩
  obtain ⟨h1, h2⟩ := fine_append env _ _ _ hf
  obtain ⟨⟨tr, hS2⟩, hk⟩ := careful_run hsp hlim ops hS' (.inr ⟨rfl, t, .refl t, hcur⟩) hr hT h1
  generalize hx : (⟨t.chunks.flatten, 0⟩ : File).after ops = x at hS2 hk ⊢
  simp only [DM.run] at h2
  rcases h2 with _ | ⟨h2, _⟩
  generalize hdm : (dm.run env ops).2 = dm1 at hS2 hk h2
  obtain ⟨hS3, hk3⟩ := careful_step (c := c) (t := t) hsp hlim hS2 hk .getNode trivial (by simp) h2
  rw [run_append, hdm]
  simp only [DM.run]
  rcases step_sim hsp hS2 .getNode trivial with ho | ⟨x', hx', _⟩
  · exact (fine_inside hsp h2 ho).elim
  generalize hst : (dm1.step env .getNode).1 = r at hx'
  cases hx' with
  | getNode n hcn hsn =>
    have hn2 := (getNode_inv hst).1
    rw [hn2] at hk3
    rcases hk3 with hk3 | ⟨_, t', ht, hnt⟩
    · -- the file cannot have grown
      exfalso
      have key : ∀ (ops : List MOp) (y : File) (tr : Track), CarefulRun False y tr ops → (∀ op ∈ ops, ∀ s, op ≠ .truncate s) → (y.after ops).data.length = y.data.length := by
        intro ops
        induction ops with
        | nil => intro y tr _ _; rfl
        | cons op ops ih =>
          intro y tr h hT
          obtain ⟨h1, h2⟩ := h
          show ((y.next op).after ops).data.length = _
          rw [ih _ _ h2 (fun o ho => hT o (by simp [ho]))]
          cases op with
          | write b => 
            obtain ⟨_, _, h⟩ := h1
            have h := h.resolve_left id
            simp only [File.next, overlay_length]; omega
          | writeAt b off =>
            obtain ⟨_, _, _, _, h⟩ := h1
            have h := h.resolve_left id
            simp only [File.next, overlay_length]; omega
          | seek off whence =>
            obtain ⟨_, p, hp, _, h⟩ := h1
            have h := h.resolve_right (fun h => h.1)
            simp only [File.next, hp, Int.toNat_natCast]
            rw [if_neg (by omega)]
          | truncate s => exact absurd rfl (hT _ (by simp) s)
          | read k => rfl
          | sync => rfl
          | getNode => rfl
          | size => rfl
          | hasChanges => rfl
      have := key ops _ _ hr hT
      rw [hx] at this
      simp only [File.next] at hk3 this
      omega
    · refine ⟨_, n, t', rfl, ht, hnt, ?_⟩
      rw [hnt, content_toNode c hc t' (T.lim_of_chunks t' (ht.lim hlim)), Option.some.injEq] at hcn
      exact hcn

/-- Two trees of the same shape with the same chunks. -/
theorem recut_eq {t t' t2 : T} {b : Bytes} (h : t.Edit t') (hs : t.Same t2) (hb : t'.chunks.flatten = b) (hc : CutAlike t.chunks b t2.chunks) : t' = t2 :=
  T.Same.ext (h.same.symm.trans hs) (chunks_inj (by rw [hc.1, h.lens]) (by rw [hc.2, hb]))

theorem results_last {rs rs' : List MRes} {n n' : Node} (h : rs ++ [({ node := some n } : MRes)] = rs' ++ [{ node := some n' }]) : n = n' := by
  have := (List.append_inj' h rfl).2
  simpa using this

section
variable {env : Env} {p : Params} {path path' : Option Bytes} {chunks chunks' : List Bytes} {fin fin' : Option Err} {budget budget' : Option Nat}
  {db1 db2 db1' db2' : DB} {fuel fuel' : Nat} {ops : List MOp}

/-- C85 for `trickle.Layout`, any history of calls without error and without `Truncate`: if the file that
`GetNode` returns is as long as it was, then it is the DAG that `Layout` makes of its content, cut at the
same places. -/
theorem C85_trickle_any {root : Node} (hf : Fresh p path chunks fin budget db1) (h1 : 1 ≤ p.maxlinks) (h2 : p.maxlinks ≤ defaultLinksPerBlock)
    (h : Trickle.layout fuel db1 = .ok (root, db1')) (hsp : SplitOK env) (hn : ∀ op ∈ ops, NonNeg op) (hT : ∀ op ∈ ops, ∀ s, op ≠ .truncate s)
    (hB : chunks.flatten.length + (ops.map reachOf).sum < 2 ^ 63)
    (hok : List.Forall₂ Fine (ops ++ [.getNode]) (results env root (ops ++ [.getNode]))) :
    ∃ rs n b, results env root (ops ++ [.getNode]) = rs ++ [{ node := some n }] ∧ content n = some b ∧
      (b.length = chunks.flatten.length → ∀ chunks' path' fin' budget' db2 db2' fuel' root', CutAlike chunks b chunks' →
        Fresh p path' chunks' fin' budget' db2 → Trickle.layout fuel' db2 = .ok (root', db2') → root' = n) := by
  have hg := C32_trickle hf h1 h2 h
  have core : ∀ t : T, root = t.toNode ⟨p.rawLeaves, p.cidBuilder, TRaw⟩ → t.chunks = chunks → t.Lim → _ := fun t hr hc hl =>
    recut_any (env := env) (c := ⟨p.rawLeaves, p.cidBuilder, TRaw⟩) (t := t) hsp hl (cfgOK_raw _ _) (hr ▸ hg) ops hn hT (hc ▸ hB) (hr ▸ hok)
  obtain ⟨t, _, hr, _, hc, _, _, hl, _⟩ := trickle_pair hf hf h1 rfl h h
  obtain ⟨rs, n, b, e1, e2, _⟩ := core t hr hc hl
  rw [← hr] at e1
  refine ⟨rs, n, b, e1, e2, fun hb chunks' path' fin' budget' db2 db2' fuel' root' hcut hf' h' => ?_⟩
  obtain ⟨t1, t2, hr1, hr2, hc1, hc2, hs, hl1, _⟩ := trickle_pair hf hf' h1 (by have := congrArg List.length hcut.1; simpa using this.symm) h h'
  obtain ⟨rs', n', b', e1', e2', e3'⟩ := core t1 hr1 hc1 hl1
  rw [← hr1, e1] at e1'
  obtain rfl := results_last e1'
  rw [e2, Option.some.injEq] at e2'
  subst e2'
  obtain ⟨t', ht, hnt, hb'⟩ := e3' (by rw [hc1]; exact hb)
  rw [hr2, hnt, recut_eq ht hs hb' (by rw [hc1, hc2]; exact hcut)]

/-- C85 for `balanced.Layout`, any history: files of two chunks or more. -/
theorem C85_balanced_any {root : Built} (hf : Fresh p path chunks fin budget db1) (h1 : 2 ≤ p.maxlinks) (h2 : p.maxlinks ≤ defaultLinksPerBlock)
    (hch : 2 ≤ chunks.length)
    (h : Balanced.layout fuel db1 = .ok (root, db1')) (hsp : SplitOK env) (hn : ∀ op ∈ ops, NonNeg op) (hT : ∀ op ∈ ops, ∀ s, op ≠ .truncate s)
    (hB : chunks.flatten.length + (ops.map reachOf).sum < 2 ^ 63)
    (hok : List.Forall₂ Fine (ops ++ [.getNode]) (results env root.node (ops ++ [.getNode]))) :
    ∃ rs n b, results env root.node (ops ++ [.getNode]) = rs ++ [{ node := some n }] ∧ content n = some b ∧
      (b.length = chunks.flatten.length → ∀ chunks' path' fin' budget' db2 db2' fuel' root', CutAlike chunks b chunks' →
        Fresh p path' chunks' fin' budget' db2 → Balanced.layout fuel' db2 = .ok (root', db2') → root'.node = n) := by
  have hg := C32_balanced hf h1 h2 hch h
  have hne : chunks ≠ [] := by rintro rfl; simp at hch
  have core : ∀ t : T, root.node = t.toNode ⟨p.rawLeaves, p.cidBuilder, TFile⟩ → t.chunks = chunks → t.Lim → _ := fun t hr hc hl =>
    recut_any (env := env) (c := ⟨p.rawLeaves, p.cidBuilder, TFile⟩) (t := t) hsp hl (cfgOK_file _ _) (hr ▸ hg) ops hn hT (hc ▸ hB) (hr ▸ hok)
  rcases balanced_pair hf hf h1 rfl h h with ⟨he, _⟩ | ⟨t, _, hr, _, hc, _, _, hl, _⟩
  · exact absurd he hne
  obtain ⟨rs, n, b, e1, e2, _⟩ := core t hr hc hl
  rw [← hr] at e1
  refine ⟨rs, n, b, e1, e2, fun hb chunks' path' fin' budget' db2 db2' fuel' root' hcut hf' h' => ?_⟩
  rcases balanced_pair hf hf' h1 (by have := congrArg List.length hcut.1; simpa using this.symm) h h' with ⟨he, _⟩ | ⟨t1, t2, hr1, hr2, hc1, hc2, hs, hl1, _⟩
  · exact absurd he hne
  obtain ⟨rs', n', b', e1', e2', e3'⟩ := core t1 hr1 hc1 hl1
  rw [← hr1, e1] at e1'
  obtain rfl := results_last e1'
  rw [e2, Option.some.injEq] at e2'
  subst e2'
  obtain ⟨t', ht, hnt, hb'⟩ := e3' (by rw [hc1]; exact hb)
  rw [hr2, hnt, recut_eq ht hs hb' (by rw [hc1, hc2]; exact hcut)]

/-- C85 for `trickle.Layout`, calls inside the file: `GetNode` returns the DAG that `Layout` makes of the
edited bytes, cut at the same places. -/
theorem C85_trickle_inside {root : Node} (hf : Fresh p path chunks fin budget db1) (h1 : 1 ≤ p.maxlinks)
    (h : Trickle.layout fuel db1 = .ok (root, db1')) (hsp : SplitOK env) (hlen : chunks.flatten.length < 2 ^ 63)
    (hr : CarefulRun False ⟨chunks.flatten, 0⟩ {} ops) (hT : ∀ op ∈ ops, ∀ s, op ≠ .truncate s)
    (hok : List.Forall₂ Fine (ops ++ [.getNode]) (results env root (ops ++ [.getNode]))) :
    ∃ rs n, results env root (ops ++ [.getNode]) = rs ++ [{ node := some n }] ∧
      ∀ chunks' path' fin' budget' db2 db2' fuel' root', CutAlike chunks ((⟨chunks.flatten, 0⟩ : File).after ops).data chunks' →
        Fresh p path' chunks' fin' budget' db2 → Trickle.layout fuel' db2 = .ok (root', db2') → root' = n := by
  have core : ∀ t : T, root = t.toNode ⟨p.rawLeaves, p.cidBuilder, TRaw⟩ → t.chunks = chunks → t.Lim → _ := fun t hr' hc hl =>
    recut_inside (env := env) (c := ⟨p.rawLeaves, p.cidBuilder, TRaw⟩) (t := t) hsp hl (cfgOK_raw _ _) ops (hc ▸ hlen) (hc ▸ hr) hT (hr' ▸ hok)
  obtain ⟨t, _, hr', _, hc, _, _, hl, _⟩ := trickle_pair hf hf h1 rfl h h
  obtain ⟨rs, n, _, e1, _⟩ := core t hr' hc hl
  rw [← hr'] at e1
  refine ⟨rs, n, e1, fun chunks' path' fin' budget' db2 db2' fuel' root' hcut hf' h' => ?_⟩
  obtain ⟨t1, t2, hr1, hr2, hc1, hc2, hs, hl1, _⟩ := trickle_pair hf hf' h1 (by have := congrArg List.length hcut.1; simpa using this.symm) h h'
  obtain ⟨rs', n', t', e1', ht, hnt, hb'⟩ := core t1 hr1 hc1 hl1
  rw [← hr1, e1] at e1'
  obtain rfl := results_last e1'
  rw [hr2, hnt, recut_eq ht hs hb' (by rw [hc1, hc2]; exact hcut)]

/-- C85 for `balanced.Layout`, calls inside the file. -/
theorem C85_balanced_inside {root : Built} (hf : Fresh p path chunks fin budget db1) (h1 : 2 ≤ p.maxlinks) (hne : chunks ≠ [])
    (h : Balanced.layout fuel db1 = .ok (root, db1')) (hsp : SplitOK env) (hlen : chunks.flatten.length < 2 ^ 63)
    (hr : CarefulRun False ⟨chunks.flatten, 0⟩ {} ops) (hT : ∀ op ∈ ops, ∀ s, op ≠ .truncate s)
    (hok : List.Forall₂ Fine (ops ++ [.getNode]) (results env root.node (ops ++ [.getNode]))) :
    ∃ rs n, results env root.node (ops ++ [.getNode]) = rs ++ [{ node := some n }] ∧
      ∀ chunks' path' fin' budget' db2 db2' fuel' root', CutAlike chunks ((⟨chunks.flatten, 0⟩ : File).after ops).data chunks' →
        Fresh p path' chunks' fin' budget' db2 → Balanced.layout fuel' db2 = .ok (root', db2') → root'.node = n := by
  have core : ∀ t : T, root.node = t.toNode ⟨p.rawLeaves, p.cidBuilder, TFile⟩ → t.chunks = chunks → t.Lim → _ := fun t hr' hc hl =>
    recut_inside (env := env) (c := ⟨p.rawLeaves, p.cidBuilder, TFile⟩) (t := t) hsp hl (cfgOK_file _ _) ops (hc ▸ hlen) (hc ▸ hr) hT (hr' ▸ hok)
  rcases balanced_pair hf hf h1 rfl h h with ⟨he, _⟩ | ⟨t, _, hr', _, hc, _, _, hl, _⟩
  · exact absurd he hne
  obtain ⟨rs, n, _, e1, _⟩ := core t hr' hc hl
  rw [← hr'] at e1
  refine ⟨rs, n, e1, fun chunks' path' fin' budget' db2 db2' fuel' root' hcut hf' h' => ?_⟩
  rcases balanced_pair hf hf' h1 (by have := congrArg List.length hcut.1; simpa using this.symm) h h' with ⟨he, _⟩ | ⟨t1, t2, hr1, hr2, hc1, hc2, hs, hl1, _⟩
  · exact absurd he hne
  obtain ⟨rs', n', t', e1', ht, hnt, hb'⟩ := core t1 hr1 hc1 hl1
  rw [← hr1, e1] at e1'
  obtain rfl := results_last e1'
  rw [hr2, hnt, recut_eq ht hs hb' (by rw [hc1, hc2]; exact hcut)]

/-- C85, undoing the edits, for `trickle.Layout`: when the content is the old one again, `GetNode` returns
the very DAG the modifier was opened on. -/
theorem C85_trickle_restore {root : Node} (hf : Fresh p path chunks fin budget db1) (h1 : 1 ≤ p.maxlinks) (h2 : p.maxlinks ≤ defaultLinksPerBlock)
    (h : Trickle.layout fuel db1 = .ok (root, db1')) (hsp : SplitOK env) (hn : ∀ op ∈ ops, NonNeg op) (hT : ∀ op ∈ ops, ∀ s, op ≠ .truncate s)
    (hB : chunks.flatten.length + (ops.map reachOf).sum < 2 ^ 63)
    (hok : List.Forall₂ Fine (ops ++ [.getNode]) (results env root (ops ++ [.getNode]))) :
    ∃ rs n, results env root (ops ++ [.getNode]) = rs ++ [{ node := some n }] ∧ (content n = content root → n = root) := by
  obtain ⟨rs, n, b, e1, e2, e3⟩ := C85_trickle_any hf h1 h2 h hsp hn hT hB hok
  refine ⟨rs, n, e1, fun hc => ?_⟩
  rw [e2, C07_trickle_content hf h1 h, Option.some.injEq] at hc
  subst hc
  exact (e3 rfl _ _ _ _ _ _ _ _ ⟨rfl, rfl⟩ hf h).symm

/-- C85, undoing the edits, for `balanced.Layout`. -/
theorem C85_balanced_restore {root : Built} (hf : Fresh p path chunks fin budget db1) (h1 : 2 ≤ p.maxlinks) (h2 : p.maxlinks ≤ defaultLinksPerBlock)
    (hch : 2 ≤ chunks.length)
    (h : Balanced.layout fuel db1 = .ok (root, db1')) (hsp : SplitOK env) (hn : ∀ op ∈ ops, NonNeg op) (hT : ∀ op ∈ ops, ∀ s, op ≠ .truncate s)
    (hB : chunks.flatten.length + (ops.map reachOf).sum < 2 ^ 63)
    (hok : List.Forall₂ Fine (ops ++ [.getNode]) (results env root.node (ops ++ [.getNode]))) :
    ∃ rs n, results env root.node (ops ++ [.getNode]) = rs ++ [{ node := some n }] ∧ (content n = content root.node → n = root.node) := by
  obtain ⟨rs, n, b, e1, e2, e3⟩ := C85_balanced_any hf h1 h2 hch h hsp hn hT hB hok
  refine ⟨rs, n, e1, fun hc => ?_⟩
  rw [e2, C06_balanced_content hf h1 h, Option.some.injEq] at hc
  subst hc
  exact (e3 rfl _ _ _ _ _ _ _ _ ⟨rfl, rfl⟩ hf h).symm
end

section Examples

/-- Two writes, with a seek between them. -/
def cutOps : List MOp := [.writeAt [88, 89] 4, .seek 9 0, .write [90], .read 3]

example : SplitOK wEnv ∧ (∀ op ∈ cutOps, NonNeg op) ∧ (∀ op ∈ cutOps, ∀ s, op ≠ .truncate s) ∧
    List.Forall₂ Fine (cutOps ++ [.getNode]) (results wEnv wTen (cutOps ++ [.getNode])) :=
  ⟨wEnv_ok.1, by simp [cutOps, NonNeg], by simp [cutOps], by decide +kernel⟩

/-- `GetNode` gives the import of the edited bytes. -/
example : (results wEnv wTen (cutOps ++ [.getNode])).getLast?.bind MRes.node = some (wFile false [[48, 49, 50, 51, 88], [89, 54, 55, 56, 90]]) := by
  decide +kernel

example : CutAlike [[48, 49, 50, 51, 52], [53, 54, 55, 56, 57]] [48, 49, 50, 51, 88, 89, 54, 55, 56, 90] [[48, 49, 50, 51, 88], [89, 54, 55, 56, 90]] :=
  ⟨rfl, rfl⟩

/-- A file of one chunk, with and without raw leaves. -/
example : CarefulRun False ⟨[1, 2, 3], 0⟩ {} [.writeAt [9] 1, .sync] ∧
    ((⟨[1, 2, 3], 0⟩ : File).after [.writeAt [9] 1, .sync]).data = [1, 9, 3] ∧
    (results wEnv (wFile true [[1, 2, 3]]) [.writeAt [9] 1, .sync, .getNode]).getLast?.bind MRes.node = some (wFile true [[1, 9, 3]]) := by
  refine ⟨?_, rfl, by decide +kernel⟩
  simp [CarefulRun, Careful]

/-- Undone edits. -/
example : (results wEnv wTen [.writeAt [88, 89] 4, .sync, .writeAt [52, 53] 4, .getNode]).getLast?.bind MRes.node = some wTen := by
  decide +kernel
end Examples

end Unixfs.Props
