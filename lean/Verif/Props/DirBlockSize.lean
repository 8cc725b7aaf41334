import Verif.Props.Dir
import Verif.Props.File
import Verif.Dir.BlockLen

/-! # C90: blocks of a directory are small -/

namespace Unixfs.Props
open Unixfs Unixfs.Hamt Unixfs.Dir Unixfs.Spec

section
variable {env : Env} {lg K w : Nat} {data : Bytes} {ls : List Link} {b : Builder} {d : Basic} {ops : List DOp} {thr : Int} {cid : Node → Bytes}

/-- C90, the HAMT form: whatever the history and the number of entries, every shard block has at most one
link per index, and besides the CID (at most `w` bytes) and the name (at most `K` bytes) 26 bytes for each. -/
theorem C90_hamt (hv : env.Valid lg) (hr : env.Real) (hd : newDirectoryFromNode (.proto data ls b) = .ok (.basic d))
    (hu : (ls.map Link.name).Nodup) (hne : [] ∉ ls.map Link.name) (hn : NoEmptyName ops)
    {c : Dir.Cfg} (hc : c = execAll env ops (start (.basic d) thr)) {h : HamtDir} (he : c.dir = .hamt h)
    {nd : Node} (hnd : (exec env .getNode c).1 = .node nd)
    (hK : ∀ name, (mapAfter env (mapOf ls) ops (start (.basic d) thr) name).isSome → name.length ≤ K) (hK' : K < 268434000)
    (hw : w < 100) (hcid : ∀ x, (cid x).length ≤ w) {x : Node} (hx : SubShard (digits (2 ^ lg)) nd x) :
    x.links.length ≤ 2 ^ lg ∧ (encBlock cid x).length ≤ x.links.length * (w + K + 26) + 2 ^ lg / 8 + 13 := by
  obtain ⟨M', h1, h2⟩ := execAll_dspec (W := (· = lg)) (bo := none) hr rfl hv.hp hv.width (by simp) ops (c := start (.basic d) thr) ⟨mapOf_empty hne, (loaded_inv hd hu).1, by simp [Plain]⟩ hn (by simp)
  rw [← h2.after] at hK
  rw [← hc] at h1
  obtain ⟨_, h1⟩ := h1
  rw [he] at h1
  obtain ⟨lg', hlg, hp, b0, cs, hi, _⟩ := h1
  subst hlg
  obtain ⟨_, hsim⟩ := toNode_sim hp env.ref (levels lg' + 1) h.shard b0 cs hi.rep ⟨_, _, _, hi.holds.wf, by omega⟩ c.st
  simp only [Dir.exec, getNode, he] at hnd
  generalize h.shard.toNode env.ref c.st = R at hnd hsim
  obtain ⟨r, st'⟩ := R
  simp only at hsim hnd
  rcases hsim with ⟨e, _⟩ | ⟨e, _⟩
  · rw [e] at hnd; cases hnd
  · rw [e] at hnd
    cases hnd
    obtain ⟨g1, _, g3⟩ := subShard_len hp hw hcid hK' _ _ _ b0 cs x hi.holds.wf (fun e he => by
      apply hK
      rw [hi.holds.map, (entries_find _ _ _ _ hi.holds.wf e.1 e.2).mp he]
      rfl) hx
    exact ⟨g1, g3⟩

/-- C90 with the default width of 256, names of at most 255 bytes and CIDs of at most 36: no shard block
has more than 81 197 bytes. -/
theorem C90_hamt_default (hv : env.Valid 8) (hr : env.Real) (hd : newDirectoryFromNode (.proto data ls b) = .ok (.basic d))
    (hu : (ls.map Link.name).Nodup) (hne : [] ∉ ls.map Link.name) (hn : NoEmptyName ops)
    {c : Dir.Cfg} (hc : c = execAll env ops (start (.basic d) thr)) {h : HamtDir} (he : c.dir = .hamt h)
    {nd : Node} (hnd : (exec env .getNode c).1 = .node nd)
    (hK : ∀ name, (mapAfter env (mapOf ls) ops (start (.basic d) thr) name).isSome → name.length ≤ 255)
    (hcid : ∀ x, (cid x).length ≤ 36) {x : Node} (hx : SubShard 2 nd x) : (encBlock cid x).length ≤ 81197 := by
  obtain ⟨h1, h2⟩ := C90_hamt hv hr hd hu hne hn hc he hnd hK (by omega) (by omega) hcid
    (by rw [show digits (2 ^ 8) = 2 by decide +kernel]; exact hx)
  omega

/-- C90, the basic form: after any history in which no caller cancels, on a directory that is below the
threshold at first, the names and CIDs in the block are below the threshold, and each link takes at most 23
bytes more. -/
theorem C90_basic (hv : env.Valid lg) (hr : env.Real) (hcn : env.NoCancel) (hd : newDirectoryFromNode (.proto data ls b) = .ok (.basic d))
    (hu : (ls.map Link.name).Nodup) (hne : [] ∉ ls.map Link.name) (hn : NoEmptyName ops) (ht : ∀ op ∈ ops, ∀ n, op ≠ .setThreshold n) (h0 : 0 < thr)
    (hthr : thr ≤ 268434000) (hb : (total ls : Int) < thr) {c : Dir.Cfg} (hc : c = execAll env ops (start (.basic d) thr)) {d' : Basic} (he : c.dir = .basic d')
    {dd : Bytes} {ll : List Link} {bb : Builder} (hnd : (exec env .getNode c).1 = .node (.proto dd ll bb))
    (hcid : ∀ l ∈ ll, (cid l.target).length = l.target.cidLen) (hsh : ∀ l ∈ ll, l.target.cidLen < 128) :
    ((encBlock cid (.proto dd ll bb)).length : Int) < thr + 23 * ll.length + dd.length + 11 := by
  subst hc
  obtain ⟨h1, _⟩ := C48_basic_below_partial hv hr hcn hd hu hne hn ht h0 hb he
  simp only [Dir.exec, getNode, he, Basic.node] at hnd
  cases hnd
  have hle : ∀ l ∈ d'.links, l.name.length + l.target.cidLen ≤ total d'.links := fun l hl =>
    List.single_le_sum (by simp) _ (List.mem_map.mpr ⟨l, hl, rfl⟩)
  have h2 := encBlock_sum_le (cid := cid) (d := d'.data) (b := d'.builder) (ls := d'.links) (f := fun l => (l.name.length + l.target.cidLen) + 23) (by
    intro l hl
    have h3 := hle l hl
    have h4 := hcid l hl
    have := encLink_named_le (cid := cid) (l := l) (by rw [h4]; exact hsh l hl) (by omega)
    omega)
  have h3 : (d'.links.map (fun l => (l.name.length + l.target.cidLen) + 23)).sum = total d'.links + 23 * d'.links.length := by
    unfold total
    generalize d'.links = xs
    induction xs with
    | nil => rfl
    | cons x xs ih => simp only [List.map_cons, List.sum_cons, ih, List.length_cons]; omega
  have h4 := Pb.encVarint_length_le d'.data.length
  omega

/-- C90 with the default threshold of 256 KiB, and CIDs of at least 34 bytes (a CIDv0, say): no block of a
basic directory has more than 438 KiB besides its data. -/
theorem C90_basic_default (hv : env.Valid lg) (hr : env.Real) (hcn : env.NoCancel) (hd : newDirectoryFromNode (.proto data ls b) = .ok (.basic d))
    (hu : (ls.map Link.name).Nodup) (hne : [] ∉ ls.map Link.name) (hn : NoEmptyName ops) (ht : ∀ op ∈ ops, ∀ n, op ≠ .setThreshold n)
    (hb : total ls < 262144) {c : Dir.Cfg} (hc : c = execAll env ops (start (.basic d) 262144)) {d' : Basic} (he : c.dir = .basic d')
    {dd : Bytes} {ll : List Link} {bb : Builder} (hnd : (exec env .getNode c).1 = .node (.proto dd ll bb))
    (hcid : ∀ l ∈ ll, (cid l.target).length = l.target.cidLen) (hsh : ∀ l ∈ ll, 34 ≤ l.target.cidLen ∧ l.target.cidLen < 128) :
    (encBlock cid (.proto dd ll bb)).length ≤ 438 * 1024 + dd.length := by
  have h1 := C90_basic hv hr hcn hd hu hne hn ht (by omega) (by omega) (by omega) hc he hnd hcid (fun l hl => (hsh l hl).2)
  subst hc
  obtain ⟨h2, _⟩ := C48_basic_below_partial hv hr hcn hd hu hne hn ht (by omega) (by omega) he
  simp only [Dir.exec, getNode, he, Basic.node] at hnd
  cases hnd
  have h3 : 34 * d'.links.length ≤ total d'.links := by
    unfold total
    revert hsh
    generalize d'.links = xs
    intro hsh
    induction xs with
    | nil => simp
    | cons x xs ih =>
      have := (hsh x (by simp)).1
      have := ih (fun l hl => hsh l (by simp [hl]))
      simp only [List.map_cons, List.sum_cons, List.length_cons]; omega
  omega
end

/-- C90: the hypotheses are met by a history that ends in a HAMT. -/
example : ∃ env nd h, env.Valid 3 ∧ env.Real ∧ NoEmptyName exCross ∧ (execAll env exCross (start newDirectory 50)).dir = .hamt h ∧
    (Dir.exec env .getNode (execAll env exCross (start newDirectory 50))).1 = .node nd ∧ SubShard (digits (2 ^ 3)) nd nd ∧
    (∀ name, (mapAfter env (mapOf []) exCross (start newDirectory 50) name).isSome → name.length ≤ 2) := by
  obtain ⟨env, ⟨E, B, C, he⟩, hr, hw⟩ := exists_ex
  have hv := IsEx.valid ⟨E, B, C, he⟩
  have hn : NoEmptyName exCross := by simp [Dir.NoEmptyName, exCross, DOp.target]
  obtain ⟨M', h1, _⟩ := execAll_dspec (W := (· = 3)) (bo := none) hr rfl hv.hp hv.width (by simp) exCross (c := start newDirectory 50)
    ⟨mapOf_empty (ls := []) (by simp), (loaded_inv (d := .ofNode folderPBData [] .v0) fresh_loaded (by simp)).1, by simp [Plain]⟩ hn (by simp)
  obtain ⟨nd, hnd⟩ := getNode_works h1 hw
  have hq := execAll_congr (E := E) (B := B) (C := C) exCross _ exCross_quiet
  rw [← he] at hq
  obtain ⟨h, hh⟩ : ∃ h, (execAll env exCross (start newDirectory 50)).dir = .hamt h := by rw [hq.1]; exact view_none (by decide +kernel)
  refine ⟨env, nd, h, hv, hr, hn, hh, hnd, .self _, fun name => ?_⟩
  rw [mapAfter, hq.2, show results exEnv exCross (start newDirectory 50) = [.done, .done, .done, .done] by decide +kernel]
  simp only [exCross, List.zip_cons_cons, Dir.lastWrite, List.zip_nil_left]
  by_cases e1 : [0x11] = name
  · subst e1; simp
  · by_cases e2 : [0x10] = name
    · subst e2; simp
    · by_cases e3 : [0x11, 1] = name
      · subst e3; simp
      · simp [e1, e2, e3, mapOf]

/-- The same additions stay in a basic directory when the threshold is 120. -/
theorem exCross_quiet120 : quiet exEnv exCross (start newDirectory 120) = true := by decide +kernel

/-- C90: the hypotheses are met by a history that ends in a basic directory of two entries; its block has
90 bytes, of which 70 are names and CIDs. -/
example : ∃ env d', env.Valid 3 ∧ env.Real ∧ env.NoCancel ∧ NoEmptyName exCross ∧ (execAll env exCross (start newDirectory 120)).dir = .basic d' ∧
    total d'.links = 70 ∧ (encBlock (fun _ => List.replicate 34 0) d'.node).length = 90 := by
  obtain ⟨env, ⟨E, B, C, he⟩, hr, hw⟩ := exists_ex
  have hv := IsEx.valid ⟨E, B, C, he⟩
  have hq := execAll_congr (E := E) (B := B) (C := C) exCross _ exCross_quiet120
  rw [← he] at hq
  have hx : (match (Dir.execAll exEnv exCross (start newDirectory 120)).dir with
    | .basic d' => decide (total d'.links = 70 ∧ (encBlock (fun _ => List.replicate 34 0) d'.node).length = 90)
    | .hamt _ => false) = true := by decide +kernel
  cases hd : (Dir.execAll exEnv exCross (start newDirectory 120)).dir with
  | hamt h => rw [hd] at hx; cases hx
  | basic d' =>
    rw [hd] at hx
    obtain ⟨h1, h2⟩ := of_decide_eq_true hx
    exact ⟨env, d', hv, hr, hw.cancel, by simp [Dir.NoEmptyName, exCross, DOp.target], by rw [hq.1]; exact hd, h1, h2⟩

end Unixfs.Props
