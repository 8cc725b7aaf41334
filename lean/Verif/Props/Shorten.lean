import Verif.Mod.Shorten
import Verif.Props.Recut

/-!
# C101: truncating an imported file gives what importing the shortened bytes gives

`CutShort chunks c s chunks'`: `chunks'` are the first `s` of the bytes `c`, cut at the same places as
`chunks`, where `s` lies inside a chunk.
-/

namespace Unixfs.Props
open Unixfs Unixfs.Mod Unixfs.Import Unixfs.Spec

/-- The number of chunks before the cut is determined. -/
theorem cutShort_count {chunks chunks1 cut chunks' : List Bytes} {c : Bytes} {s n : Nat} {pre : List Bytes} {x : Bytes} {post : List Bytes}
    (hs : s < c.length) (hl : chunks1.map List.length = chunks.map List.length) (h1 : chunks1 = pre ++ x :: post) (h2 : cut = pre ++ [x.take n])
    (h3 : cut.flatten = c.take s) (h : CutShort chunks c s chunks') : cut = chunks' := by
  obtain ⟨g1, p, y, q, k, g2, g3, g4, g5⟩ := h
  have hlens : pre.map List.length ++ x.length :: post.map List.length = p.map List.length ++ y.length :: q.map List.length := by
    rw [h1, g2] at hl
    simpa using hl
  have e1 : (pre.map List.length).sum + (x.take n).length = s := by
    have := congrArg List.length h3
    rw [h2, List.length_take, Nat.min_eq_left (by omega)] at this
    simpa [List.length_flatten] using this
  have e2 : (p.map List.length).sum + k = s := by
    have := congrArg List.length g1
    rw [List.length_flatten, g5, List.length_take, Nat.min_eq_left (by omega)] at this
    simpa using this
  have hn : (x.take n).length ≤ x.length := by rw [List.length_take]; omega
  have hpl : pre.map List.length = p.map List.length := by
    rcases List.append_eq_append_iff.mp hlens with ⟨a, a1, a2⟩ | ⟨a, a1, a2⟩
    · cases a with
      | nil => simpa using a1.symm
      | cons z a =>
        exfalso
        simp only [List.cons_append, List.cons.injEq] at a2
        rw [a1, List.sum_append, List.sum_cons, ← a2.1] at e2
        omega
    · cases a with
      | nil => simpa using a1
      | cons z a =>
        exfalso
        simp only [List.cons_append, List.cons.injEq] at a2
        rw [a1, List.sum_append, List.sum_cons, ← a2.1] at e1
        omega
  refine chunks_inj ?_ (by rw [h3, g1])
  rw [g5, h2, List.map_append, hpl]
  rw [hpl] at e1
  simp only [List.map_cons, List.map_nil]
  rw [show (x.take n).length = k by omega]

/-- Careful calls inside the file, then `Truncate`. -/
theorem shorten_inside {env : Env} {c : Import.Cfg} {t : T} (hsp : SplitOK env) (hl : t.Lim) (hc : c.OK) (hcfg : c.rawLeaves = true ∨ c.leafType = TRaw)
    (ops : List MOp) (s : Int64) (h0 : 0 ≤ s.toInt) (hs : s.toInt.toNat < t.chunks.flatten.length)
    (hlen : t.chunks.flatten.length < 2 ^ 63) (hr : CarefulRun False ⟨t.chunks.flatten, 0⟩ {} ops) (hT : ∀ op ∈ ops, ∀ s, op ≠ .truncate s)
    (hf : List.Forall₂ Fine (ops ++ [.truncate s, .getNode]) (results env (t.toNode c) (ops ++ [.truncate s, .getNode]))) :
    ∃ n t1 t', (results env (t.toNode c) (ops ++ [.truncate s, .getNode])).getLast? = some { node := some n } ∧ t.Edit t1 ∧ t1.Cut t' ∧ n = t'.toNode c ∧
      (((⟨t.chunks.flatten, 0⟩ : File).after ops).data).length = t.chunks.flatten.length ∧
      t'.chunks.flatten = ((⟨t.chunks.flatten, 0⟩ : File).after ops).data.take s.toInt.toNat := by
  -- the edited file, as returned by `Sync`
  have hlim := T.Lim.chunks hl
  obtain ⟨dm, e, hS⟩ := new_sim (sizesTrue_toNode c hc t hl) (content_toNode c hc t hl) hlen
  simp only [results, e] at hf ⊢
  have hcur : dm.cur = t.toNode c := by
    unfold newDagModifier at e
    split at e <;> rename_i hT <;> cases e <;> exact hT.symm
  have hS' : Sim (t.toNode c) False dm ⟨t.chunks.flatten, 0⟩ {} := by
    obtain ⟨f, hR, hV, hgf⟩ := hS
    have hb : f.buf = none := by
      cases h : f.buf with
      | none => rfl
      | some b =>
        have := hV.dirty (by rw [h]; rfl)
        cases this
    exact ⟨f, ⟨⟨hR.base.sizes, hR.base.cont, hR.base.ws, hR.base.cw, hR.base.buf, hR.base.lenc, hR.base.lenw, hR.base.lencw, False.elim, hR.base.store⟩, hR.rd⟩, hV, .inr (.inl hb)⟩
  obtain ⟨h1, h2⟩ := fine_append env _ _ _ hf
  obtain ⟨⟨tr, hS2⟩, hk⟩ := careful_run hsp hlim ops hS' (.inr ⟨rfl, t, .refl t, hcur⟩) hr hT h1
  have hsame := inside_length ops _ _ hr hT
  generalize hx : (⟨t.chunks.flatten, 0⟩ : File).after ops = x at hS2 hk hsame ⊢
  rw [run_append]
  generalize hdm : (dm.run env ops).2 = dm1 at hS2 hk h2 ⊢
  obtain ⟨f, hR, hV, hgf⟩ := hS2
  have hfl : f.flush.c.length = f.c.length := by
    rw [F.flush_len]
    rcases hgf.resolve_left id with h | h
    · simp [h]
    · split <;> omega
  have hfx : f.flush.c = x.data := hV.data
  have hfx' : f.c.length = x.data.length := by rw [← hfl, hfx]
  rw [← hfx'] at hk
  simp only [DM.run] at h2 ⊢
  rcases h2 with _ | ⟨h2, h3⟩
  rcases h3 with _ | ⟨h3, _⟩
  simp only [DM.step] at h2 h3 ⊢
  obtain ⟨h2, -⟩ := h2
  have h2 := h2.resolve_right (by simp)
  obtain ⟨a, ha⟩ := unit_ok h2
  rcases sync_sim hsp hR.base hgf with ⟨e, dm', e1, _⟩ | ⟨d, e1, hR', _⟩
  · unfold DM.truncate at ha; rw [e1] at ha; cases ha
  have hk' := sync_kept hlim hR.base hk e1
  rw [hfx] at hk'
  obtain ⟨-, t1, ht1, hcur1⟩ := hk'.resolve_left (by rw [hsame]; show ¬ t.chunks.flatten.length < t.chunks.flatten.length; omega)
  have hlen1 := ht1.total
  have hflat : t1.chunks.flatten = x.data := by
    have := hR'.cont
    rw [hcur1, content_toNode c hc t1 (T.lim_of_chunks t1 (ht1.lim hlim)), Option.some.injEq] at this
    rw [this, hfx]
  have hu : (u64 s.toInt).toNat = s.toInt.toNat := u64_toNat (by omega) (by omega)
  unfold DM.truncate at ha h3 ⊢
  rw [e1] at ha h3 ⊢
  dsimp only at ha h3 ⊢
  rw [hR'.size, F.flush_flush] at ha h3 ⊢
  dsimp only at ha h3 ⊢
  have hxl : f.flush.c.length = t.chunks.flatten.length := by rw [hfx, hsame]
  rw [if_neg (by omega), if_neg (by omega)] at ha h3 ⊢
  have hbuf : d.buf = none := by rw [hR'.buf, F.flush_buf]
  generalize hTr : dagTruncate env d.cur (u64 s.toInt) d.svc = Q at ha h3 ⊢
  obtain ⟨r, svc1⟩ := Q
  cases r with
  | error e => cases ha
  | ok k =>
    dsimp only at ha h3 ⊢
    rw [hcur1] at hTr
    obtain ⟨t', c1, c2, c3⟩ := dagTruncate_tree env c hc hcfg t1 _ _ _ _ (T.lim_of_chunks t1 (ht1.lim hlim)) (by omega) (by rw [hu]; omega) hTr
    generalize svc1.add env k = A at ha h3 ⊢
    obtain ⟨r, svc2⟩ := A
    cases r with
    | error e => cases ha
    | ok u =>
      dsimp only at ha h3 ⊢
      refine ⟨k, t1, t', ?_, ht1, c1, c2, hsame, by rw [c3, hflat, hu]⟩
      simp [DM.getNode, DM.sync, hbuf]

section
variable {env : Env} {p : Params} {path path' : Option Bytes} {chunks chunks' : List Bytes} {fin fin' : Option Err} {budget budget' : Option Nat}
  {db1 db2 db1' db2' : DB} {fuel fuel' : Nat} {ops : List MOp} {s : Int64}

/-- C101 for `trickle.Layout`, where the cut lies inside a chunk. -/
theorem C101_trickle_partial {root : Node} (hf : Fresh p path chunks fin budget db1) (h1 : 1 ≤ p.maxlinks)
    (h : Trickle.layout fuel db1 = .ok (root, db1')) (hsp : SplitOK env) (hlen : chunks.flatten.length < 2 ^ 63)
    (hr : CarefulRun False ⟨chunks.flatten, 0⟩ {} ops) (hT : ∀ op ∈ ops, ∀ s, op ≠ .truncate s) (h0 : 0 ≤ s.toInt) (hs : s.toInt.toNat < chunks.flatten.length)
    (hok : List.Forall₂ Fine (ops ++ [.truncate s, .getNode]) (results env root (ops ++ [.truncate s, .getNode]))) :
    ∃ n, (results env root (ops ++ [.truncate s, .getNode])).getLast? = some { node := some n } ∧
      ∀ chunks' path' fin' budget' db2 db2' fuel' root', CutShort chunks ((⟨chunks.flatten, 0⟩ : File).after ops).data s.toInt.toNat chunks' →
        Fresh p path' chunks' fin' budget' db2 → Trickle.layout fuel' db2 = .ok (root', db2') → root' = n := by
  obtain ⟨hi, hp, hm, -⟩ := Fresh.facts hf
  obtain ⟨_, _, ha, _⟩ := trickle_ok hf h1 h
  obtain ⟨ts, hroot, hch, hl⟩ := Trickle.layoutF db1 hi (by omega) fuel h
  rw [Fresh.cfg hf] at hroot
  rw [hp] at hch
  rw [hm] at hl
  have hlim : (T.node ts).Lim := T.lim_of_chunks _ (by simp only [T.chunks]; rw [hch]; exact ha.lim)
  have hchn : (T.node ts).chunks = chunks := hch
  obtain ⟨n, t1, t', e1, hed, hcut, hn, hxl, hfl⟩ := shorten_inside (env := env) hsp hlim (cfgOK_raw p.rawLeaves p.cidBuilder) (.inr rfl) ops s h0
    (hchn ▸ hs) (hchn ▸ hlen) (hchn ▸ hr) hT (hroot ▸ hok)
  rw [hchn] at hxl hfl
  refine ⟨n, hroot ▸ e1, fun chunks' path' fin' budget' db2 db2' fuel' root' hsh hf' h' => ?_⟩
  obtain ⟨hi', hp', hm', -⟩ := Fresh.facts hf'
  obtain ⟨ts', hroot', hch', hl'⟩ := Trickle.layoutF db2 hi' (by omega) fuel' h'
  rw [Fresh.cfg hf'] at hroot'
  rw [hp'] at hch'
  rw [hm'] at hl'
  obtain ⟨pre, x, post, k, c1, c2⟩ := hcut.chunks
  have hcc : t'.chunks = chunks' := cutShort_count (c := ((⟨chunks.flatten, 0⟩ : File).after ops).data) (by rw [hxl]; exact hs)
    (by rw [← hed.lens, hchn]) c1 c2 hfl hsh
  have hne : ts ≠ [] := by
    rintro rfl
    simp only [T.chunksL] at hch
    rw [← hch] at hs
    simp at hs
  have hne' : ts' ≠ [] := by
    rintro rfl
    rw [← hcc, c2] at hch'
    simp [T.chunksL] at hch'
  have g1 := hl.root hne (D := max ts.length ts'.length) (by omega)
  have g2 := hl'.root hne' (D := max ts.length ts'.length) (by omega)
  have g3 : Trickle.TG p.maxlinks _ t1 := g1.of_same hed.same
  have g4 := Trickle.TG.cut (by omega) hcut g3
  have hsm := g4.same g2 (by rw [hcc]; exact congrArg List.length hch'.symm)
  rw [hroot', hn, hsm.ext (by rw [hcc]; exact hch'.symm)]

/-- C101 for `balanced.Layout` with raw leaves, where the cut lies inside a chunk and the shorter file needs
as many levels. -/
theorem C101_balanced_partial {root : Built} (hf : Fresh p path chunks fin budget db1) (h1 : 2 ≤ p.maxlinks) (hraw : p.rawLeaves = true)
    (h : Balanced.layout fuel db1 = .ok (root, db1')) (hsp : SplitOK env) (hlen : chunks.flatten.length < 2 ^ 63)
    (hr : CarefulRun False ⟨chunks.flatten, 0⟩ {} ops) (hT : ∀ op ∈ ops, ∀ s, op ≠ .truncate s) (h0 : 0 ≤ s.toInt) (hs : s.toInt.toNat < chunks.flatten.length)
    (hok : List.Forall₂ Fine (ops ++ [.truncate s, .getNode]) (results env root.node (ops ++ [.truncate s, .getNode]))) :
    ∃ n, (results env root.node (ops ++ [.truncate s, .getNode])).getLast? = some { node := some n } ∧
      ∀ chunks' path' fin' budget' db2 db2' fuel' root', CutShort chunks ((⟨chunks.flatten, 0⟩ : File).after ops).data s.toInt.toNat chunks' →
        (∀ e, chunks'.length ≤ p.maxlinks ^ e → chunks.length ≤ p.maxlinks ^ e) →
        Fresh p path' chunks' fin' budget' db2 → Balanced.layout fuel' db2 = .ok (root', db2') → root'.node = n := by
  obtain ⟨hi, hp, hm, -⟩ := Fresh.facts hf
  obtain ⟨new, ha, -, hcase⟩ := balanced_ok hf h1 h
  rw [hp] at hcase
  rcases hcase with ⟨he, -⟩ | ⟨t, d, hroot, hch, hl, hd, -⟩
  · rw [he] at hs; simp at hs
  rw [Fresh.cfg hf] at hroot
  rw [hm] at hl hd
  have hlim : t.Lim := T.lim_of_chunks _ (by rw [hch, ← hp]; exact ha.lim)
  obtain ⟨n, t1, t', e1, hed, hcut, hn, hxl, hfl⟩ := shorten_inside (env := env) hsp hlim (cfgOK_file p.rawLeaves p.cidBuilder) (.inl hraw) ops s h0
    (hch ▸ hs) (hch ▸ hlen) (hch ▸ hr) hT (hroot ▸ hok)
  rw [hch] at hxl hfl
  refine ⟨n, hroot ▸ e1, fun chunks' path' fin' budget' db2 db2' fuel' root' hsh hlv hf' h' => ?_⟩
  obtain ⟨hi', hp', hm', -⟩ := Fresh.facts hf'
  obtain ⟨new', ha', -, hcase'⟩ := balanced_ok hf' h1 h'
  obtain ⟨pre, x, post, k, c1, c2⟩ := hcut.chunks
  have hcc : t'.chunks = chunks' := cutShort_count (c := ((⟨chunks.flatten, 0⟩ : File).after ops).data) (by rw [hxl]; exact hs)
    (by rw [← hed.lens, hch]) c1 c2 hfl hsh
  rw [hp'] at hcase'
  rcases hcase' with ⟨he', -⟩ | ⟨t2, d', hroot', hch', hl', hd', -⟩
  · rw [← hcc, c2] at he'; simp at he'
  rw [Fresh.cfg hf'] at hroot'
  rw [hm'] at hl' hd'
  have g4 := Balanced.Left.cut (m := p.maxlinks) (by omega) (Balanced.Left.of_same hed.same hl) hcut
  have k1 := (Balanced.Left.count (by omega) hl).2
  have k2 := (Balanced.Left.count (by omega) g4).2
  have k3 := (Balanced.Left.count (by omega) hl').2
  rw [hch] at k1
  rw [hcc] at k2
  rw [hch'] at k3
  have hle : chunks'.length ≤ chunks.length := by
    have := congrArg List.length hed.lens
    rw [List.length_map, List.length_map, hch, c1] at this
    rw [← hcc, c2, this]
    simp
  have hdd : d = d' := by
    refine Balanced.height_unique (n := chunks'.length) h1 k2 (fun h => ?_) k3 hd'
    have := hd h
    by_contra hc
    have := hlv (d - 1) (by omega)
    omega
  subst hdd
  have hsm := Balanced.Left.same (by omega) g4 hl' (by rw [hcc, hch'])
  rw [hroot', hn, hsm.ext (by rw [hcc, hch'])]
end

section Examples

/-- Two links per node. -/
def shortParams (raw : Bool) : Params := { maxlinks := 2, rawLeaves := raw }

def shortDB (raw : Bool) (chunks : List Bytes) : DB := { maxlinks := 2, src := chunks, rawLeaves := raw }

def shortTrickle (raw : Bool) (chunks : List Bytes) : Node :=
  match Trickle.layout 5 (shortDB raw chunks) with | .ok (r, _) => r | .error _ => .other []

def shortBalanced (raw : Bool) (chunks : List Bytes) : Node :=
  match Balanced.layout 5 (shortDB raw chunks) with | .ok (r, _) => r.node | .error _ => .other []

/-- What `GetNode` returns after these calls. -/
def lastNode (n : Node) (ops : List MOp) : Option Node := (results wEnv n ops).getLast?.bind MRes.node

def shortChunks : List Bytes := [[1, 2], [3, 4], [5, 6], [7, 8], [9]]

example : Fresh (shortParams true) none shortChunks none none (shortDB true shortChunks) := ⟨_, rfl, rfl⟩

/-- An edit, and a cut inside the fourth chunk. -/
example : CarefulRun False ⟨shortChunks.flatten, 0⟩ {} [.writeAt [60, 70] 5] ∧ ((⟨shortChunks.flatten, 0⟩ : File).after [.writeAt [60, 70] 5]).data = [1, 2, 3, 4, 5, 60, 70, 8, 9] ∧
    CutShort shortChunks [1, 2, 3, 4, 5, 60, 70, 8, 9] 7 [[1, 2], [3, 4], [5, 60], [70]] := by
  refine ⟨by simp [CarefulRun, Careful, shortChunks], rfl, rfl, [[1, 2], [3, 4], [5, 6]], [7, 8], [[9]], 1, rfl, by decide, by decide, rfl⟩

example : List.Forall₂ Fine ([.writeAt [60, 70] 5] ++ [.truncate 7, .getNode]) (results wEnv (shortTrickle false shortChunks) ([.writeAt [60, 70] 5] ++ [.truncate 7, .getNode])) := by
  decide +kernel

example : lastNode (shortTrickle false shortChunks) [.writeAt [60, 70] 5, .truncate 7, .getNode] = some (shortTrickle false [[1, 2], [3, 4], [5, 60], [70]]) ∧
    lastNode (shortTrickle true shortChunks) [.writeAt [60, 70] 5, .truncate 7, .getNode] = some (shortTrickle true [[1, 2], [3, 4], [5, 60], [70]]) := by decide +kernel

/-- Three chunks of four need as many levels as the four. -/
example : (∀ e, [[1, 2], [3, 4], [5]].length ≤ 2 ^ e → [[1, 2], [3, 4], [5, 6], [7, 8]].length ≤ 2 ^ e) ∧
    lastNode (shortBalanced true [[1, 2], [3, 4], [5, 6], [7, 8]]) [.truncate 5, .getNode] = some (shortBalanced true [[1, 2], [3, 4], [5]]) := by
  refine ⟨fun e he => ?_, by decide +kernel⟩
  rcases e with _ | _ | e
  · simp at he
  · simp at he
  · have : 2 ^ 2 ≤ 2 ^ (e + 2) := Nat.pow_le_pow_right (by decide) (by omega)
    simpa using this

/-- C101 does not hold where the cut lies between two chunks: the truncated DAG has one more link, to a
sub-DAG with an empty leaf. -/
theorem C101_violated : (lastNode (shortTrickle true shortChunks) [.truncate 4, .getNode]).map (fun n => (content n, n.links.length)) = some (some [1, 2, 3, 4], 3) ∧
    content (shortTrickle true [[1, 2], [3, 4]]) = some [1, 2, 3, 4] ∧ (shortTrickle true [[1, 2], [3, 4]]).links.length = 2 := by decide +kernel

/-- C101 does not hold where the shorter file needs fewer levels: the truncated DAG keeps a root with one link. -/
theorem C101_violated_levels : (lastNode (shortBalanced true shortChunks) [.truncate 5, .getNode]).map (fun n => (content n, n.links.length)) = some (some [1, 2, 3, 4, 5], 1) ∧
    content (shortBalanced true [[1, 2], [3, 4], [5]]) = some [1, 2, 3, 4, 5] ∧ (shortBalanced true [[1, 2], [3, 4], [5]]).links.length = 2 := by decide +kernel

/-- C101 does not hold for `balanced.Layout` without raw leaves: the leaf at the cut has the type Raw, not
the type File as the leaves of the import. -/
theorem C101_violated_leaf : lastNode (shortBalanced false [[1, 2, 3]]) [.truncate 2, .getNode] = some (.proto [8, 0, 18, 2, 1, 2, 24, 2] [] .v0) ∧
    shortBalanced false [[1, 2]] = .proto [8, 2, 18, 2, 1, 2, 24, 2] [] .v0 := by decide +kernel

end Examples

end Unixfs.Props
