import Verif.Dir.Builder
import Verif.Props.Dir

/-! # C94: the CID builder of a directory -/

namespace Unixfs.Props
open Unixfs.Hamt hiding exec execAll results NoEmptyName lastWrite Cfg
open Unixfs.Dir

section
variable {env env' : Env} {lg : Nat} {data : Bytes} {ls : List Link} {b : Builder} {ops : List DOp} {thr : Int} {d : Dir} {n : Node} {c' : Cfg}

/-- C94, the root: after any calls, with any failures and through any switches between the two forms, the
node of a directory has the CID builder that was set last, or else that of the node it was loaded from. -/
theorem C94_root (hb : b.codec = 0x70) (hd : newDirectoryFromNode (.proto data ls b) = .ok d)
    (hn : exec env' .getNode (execAll env ops (start d thr)) = (.node n, c')) : madeWith n = some (lastBuilder b ops) := by
  have hB : pbBuilder (some b) = b := by simp [pbBuilder, Builder.withCodec, hb]
  have h := execAll_builder env ops (start d thr) hB (load_dir_builder hB hd)
  simp only [exec] at hn
  split at hn
  · next hg =>
    cases hn
    obtain ⟨⟨_, _, rfl⟩, _⟩ := getNode_builder env' hg
    rw [← h]; rfl
  · cases hn

/-- C94 for `NewDirectory`: CIDv0 unless something else is set. -/
theorem C94_new (hn : exec env' .getNode (execAll env ops (start newDirectory thr)) = (.node n, c')) : madeWith n = some (lastBuilder .v0 ops) :=
  C94_root rfl fresh_loaded hn

/-- CIDv1 with another hash function. -/
def exV1 : Builder := ⟨1, 0x70, 0x1e, 32⟩

/-- Basic, then a HAMT, then basic again, with the builder set before and between. -/
def exBuilders : List DOp := [.setCidBuilder (some { exV1 with codec := 0x55 }), .add [0x10] (exNd 1), .add [0x11] (exNd 2), .reload, .remove [0x10], .setCidBuilder none, .reload]

/-- The builder of the node in a result, and those of the nodes it links to (entries are raw blocks here). -/
def exMade : DRes → List Builder
  | .node (.proto _ ls b) => b :: ls.filterMap (fun l => madeWith l.target)
  | _ => []

/-- The result of `GetNode` after some of the calls above. -/
def exAt (k : Nat) : DRes := (exec exEnv .getNode (execAll exEnv (exBuilders.take k) (start newDirectory 50))).1

/-- C94: the hypotheses are met by histories that end in each form, with a builder set before the switch:
a HAMT, a basic directory with that builder, and with the next one. -/
example : view (execAll exEnv (exBuilders.take 3) (start newDirectory 50)).dir = none ∧
    (view (execAll exEnv (exBuilders.take 5) (start newDirectory 50)).dir).isSome = true ∧
    exMade (exAt 3) = [exV1, exV1] ∧ exMade (exAt 5) = [exV1] ∧ exMade (exAt 7) = [.v0] ∧
    lastBuilder .v0 (exBuilders.take 3) = exV1 ∧ lastBuilder .v0 (exBuilders.take 7) = .v0 := by
  refine ⟨by decide +kernel, by decide +kernel, by decide +kernel, by decide +kernel, by decide +kernel, by decide, by decide⟩

/-- C94, sub-shards: if the builder is set on a new directory, before there are entries, all shards of its
HAMT form have it. -/
theorem C94_shards (hv : env.Valid lg) (hr : env.Real) {bd : Option Builder} (hne : NoEmptyName ops) (hb : ∀ op ∈ ops, ∀ b, op ≠ .setCidBuilder b)
    {c : Cfg} (hc : c = execAll env (.setCidBuilder bd :: ops) (start newDirectory thr)) {h : HamtDir} (hh : c.dir = .hamt h)
    (hn : exec env' .getNode c = (.node n, c')) {x : Node} (hx : SubShard (digits (2 ^ lg)) n x) : madeWith x = some (pbBuilder bd) := by
  obtain ⟨g1, g2, g3, g4⟩ := loaded_inv fresh_loaded (by simp)
  obtain ⟨M', i1, i2⟩ := execAll_dspec (W := (· = lg)) (bo := some (pbBuilder bd)) hr rfl hv.hp hv.width
    (by intro b0 h; cases h; exact Dir.pbBuilder_fix bd) ops (c := (exec env (.setCidBuilder bd) (start newDirectory thr)).2) (M := mapOf [])
    ⟨rfl, ⟨g1.lists, g1.est, g1.isDir⟩, by intro b0 h; cases h; exact ⟨rfl, rfl⟩⟩ hne (fun op ho bd' h => absurd h (hb op ho bd'))
  rw [show execAll env ops (exec env (.setCidBuilder bd) (start newDirectory thr)).2 = c from hc.symm] at i1
  obtain ⟨_, i1⟩ := i1
  rw [hh] at i1
  obtain ⟨lg', hlg, hp, b0, cs, hi, hs⟩ := i1
  subst hlg
  obtain ⟨rfl, hcan⟩ := hs _ rfl
  obtain ⟨_, hsim⟩ := toNode_sim hp env'.ref (levels lg' + 1) h.shard _ cs hi.rep ⟨_, _, _, hi.holds.wf, by omega⟩ c.st
  simp only [Dir.exec, getNode, hh] at hn
  generalize h.shard.toNode env'.ref c.st = R at hn hsim
  obtain ⟨r, st'⟩ := R
  simp only at hsim hn
  rcases hsim with ⟨e, _⟩ | ⟨e, _⟩
  · rw [e] at hn; cases hn
  · rw [e] at hn
    cases hn
    exact subShard_builder hp _ _ _ _ _ _ hi.holds.wf hcan hx

/-- C94: the hypotheses are met, with sub-shards. -/
example : ∃ env, env.Valid 3 ∧ env.Real ∧ NoEmptyName exCross ∧ (∀ op ∈ exCross, ∀ b, op ≠ .setCidBuilder b) ∧
    (∃ h, (execAll env (.setCidBuilder (some exV1) :: exCross) (start newDirectory 50)).dir = .hamt h) ∧
    exMade (exec env .getNode (execAll env (.setCidBuilder (some exV1) :: exCross) (start newDirectory 50))).1 = [exV1, exV1] := by
  obtain ⟨env, ⟨E, B, C, he⟩, hr, _⟩ := exists_ex
  have hq : quiet exEnv (.setCidBuilder (some exV1) :: exCross) (start newDirectory 50) = true := by decide +kernel
  have h1 := (execAll_congr (E := E) (B := B) (C := C) _ _ hq).1
  rw [← he] at h1
  refine ⟨env, IsEx.valid ⟨E, B, C, he⟩, hr, by simp [NoEmptyName, exCross, DOp.target], by simp [exCross], ?_, ?_⟩
  · rw [h1]; exact view_none (by decide +kernel)
  · rw [h1, he, getNode_other]; decide +kernel

/-- C94, what `SetCidBuilder` changes: the builder of the root, and nothing else of the node; in
particular sub-shards that are there already keep theirs. -/
theorem C94_only_root {c : Cfg} {bd : Option Builder} (hn : exec env .getNode c = (.node n, c')) :
    ∃ data ls b0 c'', n = .proto data ls b0 ∧ exec env .getNode (exec env (.setCidBuilder bd) c).2 = (.node (.proto data ls (pbBuilder bd)), c'') := by
  simp only [exec, getNode, setCidBuilder] at hn ⊢
  cases hd : c.dir with
  | basic b =>
    rw [hd] at hn
    cases hn
    exact ⟨_, _, _, _, rfl, rfl⟩
  | hamt h =>
    rw [hd] at hn
    simp only at hn ⊢
    obtain ⟨shard, sc⟩ := h
    obtain ⟨size, bf, slots, b, k, v⟩ := shard
    simp only [Shard.setCidBuilder]
    unfold Shard.toNode at hn ⊢
    cases hl : linksOf env.ref size slots ((List.range size).filter (fun i => bfBit bf i)) c.st with
    | mk r st' =>
      rw [hl] at hn
      cases r with
      | error e => cases hn
      | ok ls' =>
        simp only at hn ⊢
        split at hn
        · next heq =>
          split at heq
          · cases heq
          · next hdata =>
            split at heq
            · cases heq
            · next hr =>
              cases heq; cases hn
              rw [if_neg hr]
              exact ⟨_, _, _, _, rfl, rfl⟩
        · cases hn

/-- C94: a builder that is set when there are sub-shards already leaves them with the old one. -/
example : exMade (exec exEnv .getNode (execAll exEnv (exCross ++ [.setCidBuilder (some exV1)]) (start newDirectory 50))).1 = [exV1, .v0] := by
  decide +kernel
end

end Unixfs.Props
