import Verif.File.IterLemmas
import Verif.File.Robust
import Verif.Props.Dir
import Verif.Props.Reader

/-!
# Resolution, opening and iteration: C51–C53, C67–C69
-/

namespace Unixfs.Props
open Unixfs.Hamt hiding exec execAll results NoEmptyName lastWrite Cfg
open Unixfs.Dir Unixfs.File Unixfs.Spec

variable {env env' : Env} {lg : Nat} {data : Bytes} {ls : List Link} {b : Builder} {d : Basic} {ops : List DOp} {thr : Int} {net : Net} {t : Nat}
  {nd : Node} {oth : OtherResolve} {k : Bytes} {rest : List Bytes}

/-! ### C51: resolution -/

/-- C51: on a node that is no HAMT, the first link with the name, and the rest of the path. -/
theorem C51_plain (H : Hash) (hp : ∀ m, Pb.Data.unmarshal data = .ok m → m.typ ≠ some THAMTShard) :
    (∀ l, (∃ pre post, ls = pre ++ l :: post ∧ l.name = k ∧ ∀ x ∈ pre, x.name ≠ k) → resolveUnixfsOnce H net oth (.proto data ls b) (k :: rest) t = (.ok (some l, rest), t)) ∧
    ((∀ l ∈ ls, l.name ≠ k) → resolveUnixfsOnce H net oth (.proto data ls b) (k :: rest) t = (.error .notExist, t)) := by
  have h0 : resolveUnixfsOnce H net oth (.proto data ls b) (k :: rest) t = (resolveLink oth (.proto data ls b) (k :: rest), t) := by
    rw [resolveUnixfsOnce]
    split
    · rfl
    · rename_i fs hfs
      rw [FSNode.fromBytes] at hfs
      split at hfs
      · cases hfs
      · rename_i m hm
        cases hfs
        have hty := hp m hm
        have hw := Pb.Data.unmarshal_wf hm
        rw [if_neg]
        intro h
        apply hty
        rw [FSNode.type, Pb.Data.getType] at h
        have := hw.typ
        cases ht : m.typ with
        | none => rw [ht] at this; cases this
        | some x => rw [ht] at h; exact congrArg some h
  rw [h0, resolveLink]
  refine ⟨?_, fun h => ?_⟩
  · rintro l ⟨pre, post, rfl, h1, h2⟩
    have : (pre ++ l :: post).find? (fun l => l.name = k) = some l := by
      rw [List.find?_append, List.find?_eq_none.mpr (by simpa using h2)]
      simp [h1]
    rw [this]
  · have : ls.find? (fun l => l.name = k) = none := List.find?_eq_none.mpr (by simpa using h)
    rw [this]

/-- What `ResolveUnixfsOnce` does on the node of a directory that holds `M`. -/
theorem resolve_dir {W : Nat → Prop} {bo : Option Builder} {c : Dir.Cfg} {M : NMap} (hi : DInv env W bo c.dir c.st M) (hn : (exec env .getNode c).1 = .node nd) :
    ∀ R, resolveUnixfsOnce env.H net oth nd (k :: rest) t = R →
    (∃ l, R.1 = .ok (some l, rest) ∧ M k = some (linkVal l)) ∨ (R.1 = .error .notExist ∧ M k = none) ∨ (R.1 = .error .notFound ∧ FetchFailed net t R.2) := by
  rintro R rfl
  obtain ⟨hne, hi⟩ := hi
  simp only [exec, getNode] at hn
  cases hd : c.dir with
  | basic bd =>
    rw [hd] at hi hn
    dsimp only at hi hn
    obtain ⟨fs, h1, h2⟩ := hi.1.isDir
    cases hn
    rw [Basic.node, resolveUnixfsOnce, h1]
    dsimp only
    rw [if_neg (by rw [h2]; decide), resolveLink]
    have hb := bget hi.1 k
    rw [Basic.getNodeLink] at hb
    rw [hb]
    cases hm : M k with
    | none => exact .inr (.inl ⟨rfl, rfl⟩)
    | some v => exact .inl ⟨_, rfl, rfl⟩
  | hamt h =>
    rw [hd] at hi hn
    obtain ⟨lg, hlg, hp, hi⟩ := hi
    dsimp only at hn
    generalize hF : h.shard.toNode env.ref c.st = F at hn
    obtain ⟨r, st'⟩ := F
    obtain ⟨_, _, h3⟩ := snode hp env.ref hi hF
    rcases h3 with ⟨nd', s', rfl, hl, hi'⟩ | ⟨rfl, hf⟩
    · dsimp only at hn
      cases hn
      have hty := hl
      unfold newHamtFromDag at hty
      split at hty
      · rename_i d' ls' b'
        rw [resolveUnixfsOnce]
        split at hty
        · cases hty
        · rename_i fs hfs
          rw [hfs]
          dsimp only
          split at hty
          · cases hty
          · rename_i ht
            rw [if_pos (by simpa using ht), hl]
            dsimp only
            generalize hR : s'.find env.H net k t = R
            obtain ⟨r, s'', t'⟩ := R
            obtain ⟨_, _, h3⟩ := sfind hp net hi' k t hR
            rcases h3 with ⟨l, rfl, hM⟩ | ⟨rfl, hM⟩ | ⟨rfl, hf⟩
            · exact .inl ⟨l, rfl, hM⟩
            · exact .inr (.inl ⟨rfl, hM⟩)
            · exact .inr (.inr ⟨rfl, hf⟩)
      · cases hty
    · cases hn

/-- C51: on the node that `GetNode` returns after any history of a directory, in either form, one hop
gives the entry of the name (its size and target) and the rest of the path, and an error if there is no entry. -/
theorem C51_directory (hv : env.Valid lg) (hr : env.Real) (hd : newDirectoryFromNode (.proto data ls b) = .ok (.basic d)) (hu : (ls.map Link.name).Nodup)
    (hne : [] ∉ ls.map Link.name) (hn : NoEmptyName ops) (hH : env'.H = env.H)
    (hg : (exec env' .getNode (execAll env ops (start (.basic d) thr))).1 = .node nd) (hnet : ∀ u x, net u x = true) :
    match mapAfter env (mapOf ls) ops (start (.basic d) thr) k with
    | some v => ∃ l t', resolveUnixfsOnce env.H net oth nd (k :: rest) t = (.ok (some l, rest), t') ∧ linkVal l = v
    | none => ∃ t', resolveUnixfsOnce env.H net oth nd (k :: rest) t = (.error .notExist, t') := by
  obtain ⟨M', h1, h2⟩ := execAll_dspec (W := (· = lg)) (bo := none) hr rfl hv.hp hv.width (by simp) ops (c := start (.basic d) thr) ⟨mapOf_empty hne, (loaded_inv hd hu).1, by simp [Plain]⟩ hn (by simp)
  rw [← h2.after]
  have h3 : DInv env' (· = lg) none (execAll env ops (start (.basic d) thr)).dir (execAll env ops (start (.basic d) thr)).st M' := by
    rw [DInv.eq_def, hH]; exact h1
  have h4 := resolve_dir (oth := oth) (net := net) (t := t) (k := k) (rest := rest) h3 hg _ rfl
  rw [hH] at h4
  generalize resolveUnixfsOnce env.H net oth nd (k :: rest) t = R at h4
  obtain ⟨r, t'⟩ := R
  rcases h4 with ⟨l, h4, h5⟩ | ⟨h4, h5⟩ | ⟨_, u, x, _, _, h4⟩
  · rw [h5]; dsimp only at h4; subst h4; exact ⟨l, t', rfl, rfl⟩
  · rw [h5]; dsimp only at h4; subst h4; exact ⟨t', rfl⟩
  · rw [hnet] at h4; cases h4

/-- C51: on every node with the HAMT type, however malformed, and whatever can be fetched: what is
returned is an entry of the HAMT with the name, and the rest of the path. -/
theorem C51_sound (H : Hash) {o : Option Link} {rest' : List Bytes} {t' : Nat} {m : Pb.Data} (hm : Pb.Data.unmarshal data = .ok m) (hty : m.typ = some THAMTShard)
    (h : resolveUnixfsOnce H net oth (.proto data ls b) (k :: rest) t = (.ok (o, rest'), t')) :
    rest' = rest ∧ ∃ s c l, newHamtFromDag (.proto data ls b) = .ok s ∧ PartOf s (.shard c) ∧ o = some l ∧ Entry c (.mk k l.tsize l.target) := by
  rw [resolveUnixfsOnce, show FSNode.fromBytes data = .ok ⟨m⟩ by rw [FSNode.fromBytes, hm]] at h
  dsimp only at h
  rw [if_pos (by rw [FSNode.type, Pb.Data.getType, hty]; rfl)] at h
  split at h
  · cases h
  · rename_i s hs
    have hl := getValue_fresh H net (Shard.fuel H k) s 0 k t (load_fresh hs).1 (by omega) (by rw [Shard.fuel])
    rw [Shard.find] at h
    generalize Shard.getValue H net (Shard.fuel H k) s 0 k t = R at h hl
    obtain ⟨r, s', t2⟩ := R
    cases r with
    | error e => cases h
    | ok o' =>
      cases h
      obtain ⟨l, c, rfl, h1, h2, h3, h4⟩ := hl
      refine ⟨rfl, s, c, l, hs, h1, rfl, ?_⟩
      rw [← h4]
      exact .link h2 h3

theorem getNode_works {W : Nat → Prop} {bo : Option Builder} {c : Dir.Cfg} {M : NMap} (hi : DInv env W bo c.dir c.st M) (hw : env.Works) : ∃ nd, (exec env .getNode c).1 = .node nd := by
  obtain ⟨M', _, hs, _⟩ := getNode_spec hi
  generalize exec env .getNode c = R at hs
  obtain ⟨r, c'⟩ := R
  cases hs with
  | getNode => exact ⟨_, rfl⟩
  | getNodeFail h =>
    cases h with
    | fetch h => obtain ⟨u, x, _, _, h⟩ := h; rw [hw.net] at h; cases h
    | add h => obtain ⟨u, _, _, h⟩ := h; rw [hw.ref] at h; cases h
    | enum h1 h2 h => rcases h with ⟨x, h⟩ | h; exacts [absurd h (hw.bad _ _), absurd h (hw.cancel _)]

/-- C51, C52: the hypotheses are met by a history that ends in the HAMT form. -/
example : ∃ env nd, env.Valid 3 ∧ env.Real ∧ NoEmptyName exCross ∧ (∃ h, (execAll env exCross (start newDirectory 50)).dir = .hamt h) ∧
    (exec env .getNode (execAll env exCross (start newDirectory 50))).1 = .node nd := by
  obtain ⟨env, ⟨E, B, C, he⟩, hr, hw⟩ := exists_ex
  have hv := IsEx.valid ⟨E, B, C, he⟩
  have hn : NoEmptyName exCross := by simp [NoEmptyName, exCross, DOp.target]
  obtain ⟨M', h1, _⟩ := execAll_dspec (W := (· = 3)) (bo := none) hr rfl hv.hp hv.width (by simp) exCross (c := start newDirectory 50)
    ⟨mapOf_empty (ls := []) (by simp), (loaded_inv (d := .ofNode folderPBData [] .v0) fresh_loaded (by simp)).1, by simp [Plain]⟩ hn (by simp)
  obtain ⟨nd, hnd⟩ := getNode_works h1 hw
  refine ⟨env, nd, hv, hr, hn, ?_, hnd⟩
  rw [he, (execAll_congr (E := E) (B := B) (C := C) exCross _ exCross_quiet).1]
  exact view_none (by decide +kernel)

/-- C51: a name that is there twice, with the first link taken. -/
example : (resolveUnixfsOnce H0 goodNet (fun _ _ => .error .notExist) (.proto folderPBData [.mk [1] 1 (exNd 1), .mk [2] 1 (exNd 2), .mk [2] 1 (exNd 3)] .v0) [[2], [7]] 0).1.toOption
    = some (some (.mk [2] 1 (exNd 2)), [[7]]) := by decide +kernel

/-! ### C67: resolution does not panic -/

/-- C67, what holds: for every node, also a malformed one, and every path that is not empty, resolution
does not panic. Missing: the empty path, see `C67_violated`. -/
theorem C67_no_panic_partial (H : Hash) (hoth : ∀ d names, NoPanic (oth d names)) : NoPanic (resolveUnixfsOnce H net oth nd (k :: rest) t).1 := by
  have hl : ∀ nd', NoPanic (resolveLink oth nd' (k :: rest)) := by
    intro nd'
    cases nd' with
    | proto d ls b =>
      rw [resolveLink]
      cases ls.find? (fun l => l.name = k) <;> exact ⟨by simp, by simp⟩
    | raw d b => exact ⟨by simp [resolveLink], by simp [resolveLink]⟩
    | other d => exact hoth d _
  have sane : ∀ {α : Type} {e : Err}, e.Sane → NoPanic (Except.error e : Except Err α) := fun h => ⟨by simpa using h.1, by simpa using h.2⟩
  unfold resolveUnixfsOnce
  split
  · rename_i d ls b
    split
    · exact hl (.proto d ls b)
    · split
      · split
        · rename_i e he; exact sane (load_sane he)
        · rename_i s hs
          have hg := getValue_fresh H net (Shard.fuel H k) s 0 k t (load_fresh hs).1 (by omega) (by rw [Shard.fuel])
          have hF : s.find H net k t = Shard.getValue H net (Shard.fuel H k) s 0 k t := rfl
          dsimp only
          rw [hF]
          generalize Shard.getValue H net (Shard.fuel H k) s 0 k t = R at hg
          obtain ⟨r, s', t2⟩ := R
          cases r with
          | error e => exact sane hg
          | ok o => exact ⟨by simp, by simp⟩
      · exact hl (.proto d ls b)
  · exact hl _

example : (resolveUnixfsOnce H0 goodNet (fun _ _ => .error .notExist) (.other [1]) [[2]] 0).1 = .error .notExist ∧
    NoPanic (resolveUnixfsOnce H0 goodNet (fun _ _ => .error .notExist) (.other [1]) [[2]] 0).1 :=
  ⟨rfl, C67_no_panic_partial H0 fun _ _ => by simp [NoPanic]⟩

/-- An empty HAMT node of width 8. -/
def exHamtNode : Node := .proto (match hamtShardData none 8 HashMurmur3 with | .ok d => d | .error _ => []) [] .v0

/-- C67 is violated: with the empty path, resolution on a HAMT panics (on other nodes it returns an error). -/
theorem C67_violated : (resolveUnixfsOnce H0 goodNet (fun _ _ => .error .notExist) exHamtNode [] 0).1 = .error .panic ∧
    (resolveUnixfsOnce H0 goodNet (fun _ _ => .error .notExist) (.proto folderPBData [] .v0) [] 0).1 = .error (.dir "end of path, no more links to resolve") := by
  decide +kernel

/-! ### C52: `NewUnixfsFile` -/

/-- C52: a file comes out exactly when a reader can be opened on the node, and it is that reader. -/
theorem C52_file (dr : DR) : newUnixfsFile net t nd = .ok (.file dr) ↔ newDagReader net t nd = .ok dr := by
  have hopen : ∀ nd, newUnixfsFile.open_ net t nd = .ok (.file dr) ↔ newDagReader net t nd = .ok dr := by
    intro nd
    rw [newUnixfsFile.open_]
    cases newDagReader net t nd with
    | error e => simp
    | ok x => simp
  cases nd with
  | raw d b => rw [newUnixfsFile]; exact hopen _
  | other d => simp [newUnixfsFile, newDagReader]
  | proto d ls b =>
    rw [newUnixfsFile]
    cases hf : FSNode.fromBytes d with
    | error e => simp [newDagReader, hf]
    | ok fs =>
      dsimp only
      by_cases hdir : fs.isDir = true
      · rw [if_pos hdir, newUnixfsDir]
        have : newDagReader net t (.proto d ls b) = .error .isDir := by
          have hty : fs.type = TDirectory ∨ fs.type = THAMTShard := by simpa [FSNode.isDir] using hdir
          rw [newDagReader, hf]
          dsimp only
          rw [if_neg, if_pos hty]
          rcases hty with h | h <;> rw [h] <;> decide
        rw [this]
        cases newDirectoryFromNode (.proto d ls b) <;> simp
      · rw [if_neg hdir]
        by_cases hs : fs.type = TSymlink
        · rw [if_pos hs]
          have : newDagReader net t (.proto d ls b) = .error .cantReadSymlinks := by
            rw [newDagReader, hf]
            dsimp only
            rw [hs]
            rfl
          rw [this]; simp
        · rw [if_neg hs]; exact hopen _

/-- C52: a directory comes out exactly when the node is one, with its entries and the size of the node. -/
theorem C52_dir (d : Dir) (n : Int) : newUnixfsFile net t nd = .ok (.dir d n) ↔ newDirectoryFromNode nd = .ok d ∧ n = i64 nd.size.toNat := by
  have hopen : ∀ nd, newUnixfsFile.open_ net t nd ≠ .ok (.dir d n) := by
    intro nd
    rw [newUnixfsFile.open_]
    cases newDagReader net t nd <;> simp
  cases nd with
  | raw d' b => rw [newUnixfsFile]; simp [hopen, newDirectoryFromNode]
  | other d => simp [newUnixfsFile, newDirectoryFromNode]
  | proto d' ls b =>
    rw [newUnixfsFile]
    cases hf : FSNode.fromBytes d' with
    | error e => simp [newDirectoryFromNode, hf]
    | ok fs =>
      dsimp only
      by_cases hdir : fs.isDir = true
      · rw [if_pos hdir, newUnixfsDir]
        cases newDirectoryFromNode (.proto d' ls b) with
        | error e => simp
        | ok x => simp [eq_comm]
      · rw [if_neg hdir]
        have h2 : newDirectoryFromNode (.proto d' ls b) ≠ .ok d := by
          have hty : ¬ (fs.type = TDirectory ∨ fs.type = THAMTShard) := by simpa [FSNode.isDir] using hdir
          rw [newDirectoryFromNode, hf]
          dsimp only
          rw [if_neg (fun h => hty (.inl h)), if_neg (fun h => hty (.inr h))]
          simp
        by_cases hs : fs.type = TSymlink
        · rw [if_pos hs]; simp [h2]
        · rw [if_neg hs]; simp [hopen, h2]

/-- C52: a symlink comes out exactly for nodes of type Symlink, and its target is the payload. -/
theorem C52_symlink (target : Bytes) : newUnixfsFile net t nd = .ok (.symlink target) ↔
    ∃ data ls b m, nd = .proto data ls b ∧ Pb.Data.unmarshal data = .ok m ∧ m.typ = some TSymlink ∧ m.data.getD [] = target := by
  have hopen : ∀ nd, newUnixfsFile.open_ net t nd ≠ .ok (.symlink target) := by
    intro nd
    rw [newUnixfsFile.open_]
    cases newDagReader net t nd <;> simp
  cases nd with
  | raw d' b => rw [newUnixfsFile]; simp [hopen]
  | other d => simp [newUnixfsFile]
  | proto d' ls b =>
    rw [newUnixfsFile]
    simp only [Node.proto.injEq]
    cases hm : Pb.Data.unmarshal d' with
    | error e =>
      rw [FSNode.fromBytes, hm]
      simp only [reduceCtorEq, false_iff]
      rintro ⟨_, _, _, _, ⟨rfl, _⟩, h, _⟩
      rw [hm] at h; cases h
    | ok m =>
      have hf : FSNode.fromBytes d' = .ok ⟨m⟩ := by rw [FSNode.fromBytes, hm]
      obtain ⟨ty, hty⟩ : ∃ ty, m.typ = some ty := by
        have := (Pb.Data.unmarshal_wf hm).typ
        cases h : m.typ with
        | none => rw [h] at this; cases this
        | some x => exact ⟨x, rfl⟩
      have hT : FSNode.type ⟨m⟩ = ty := by rw [FSNode.type, Pb.Data.getType, hty]; rfl
      have hex : (∃ data ls' b' m', (d' = data ∧ ls = ls' ∧ b = b') ∧ Pb.Data.unmarshal data = .ok m' ∧ m'.typ = some TSymlink ∧ m'.data.getD [] = target)
          ↔ ty = TSymlink ∧ m.data.getD [] = target := by
        constructor
        · rintro ⟨_, _, _, _, ⟨rfl, _⟩, h, h2, h3⟩
          rw [hm] at h; cases h
          rw [hty] at h2; cases h2
          exact ⟨rfl, h3⟩
        · rintro ⟨rfl, h⟩; exact ⟨_, _, _, m, ⟨rfl, rfl, rfl⟩, hm, hty, h⟩
      rw [hex, hf]
      dsimp only
      by_cases hdir : FSNode.isDir ⟨m⟩ = true
      · rw [if_pos hdir, newUnixfsDir]
        have hne : ty ≠ TSymlink := by
          rintro rfl
          rw [FSNode.isDir, hT] at hdir; exact absurd hdir (by decide)
        cases newDirectoryFromNode (.proto d' ls b) <;> simp [hne]
      · rw [if_neg hdir, hT]
        by_cases hs : ty = TSymlink
        · rw [if_pos hs]; simp [hs, FSNode.data, Pb.Data.getData]
        · rw [if_neg hs]; simp [hopen, hs]

/-- C52: every symlink node that `SymlinkData` makes opens as a symlink with that target. -/
theorem C52_symlink_roundtrip (target : Bytes) (hl : target.length < 2 ^ 63) :
    ∃ data, symlinkData target = .ok data ∧ ∀ ls b, newUnixfsFile net t (.proto data ls b) = .ok (.symlink target) := by
  have w : Pb.Data.WF { typ := some TSymlink, data := some target } := ⟨rfl, by simp; omega, .nil⟩
  obtain ⟨b, hb, hu⟩ := Pb.Data.unmarshal_marshal _ w
  exact ⟨b, hb, fun ls b' => (C52_symlink target).mpr ⟨_, _, _, _, rfl, hu, rfl, rfl⟩⟩

example : ([47, 116, 109, 112] : Bytes).length < 2 ^ 63 := by decide

/-- C52: every node that stands for a file opens as a file, of which any sequence of reads and seeks
gives what it would give on the plain content. (`SizesTrue`: the recorded sizes are right, as in all imported files.) -/
theorem C52_file_content (hw : WorksFrom net t) {x : Node} {c : Bytes} (ho : Opens nd x) (hs : SizesTrue x) (hc : content x = some c) (hl : c.length < 2 ^ 63)
    (rops : List ROp) (hg : GoodWriters rops) :
    ∃ dr, newUnixfsFile net t nd = .ok (.file dr) ∧ (FileNode.file dr).size = some (c.length : Int) ∧ ∃ p, FlatRun c 0 rops (dr.run net rops).1 p := by
  obtain ⟨dr, h1, h2⟩ := C20_flat_reader hw ho hs hc hl rops hg
  obtain ⟨dr', h3, h4, _⟩ := C21_size hw ho hs hc hl (fun _ => none) (fun _ => rfl)
  rw [h1] at h3; cases h3
  refine ⟨dr, (C52_file dr).mpr h1, ?_, h2⟩
  rw [FileNode.size, h4, Reader.i64_id (by omega) (by omega)]

theorem node_opens {W : Nat → Prop} {bo : Option Builder} {c : Dir.Cfg} {M : NMap} (hi : DInv env W bo c.dir c.st M) (hn : (exec env .getNode c).1 = .node nd) :
    ∃ d', newDirectoryFromNode nd = .ok d' ∧ DInv env W bo d' (exec env .getNode c).2.st M := by
  obtain ⟨hne, hi⟩ := hi
  simp only [exec, getNode] at hn ⊢
  cases hd : c.dir with
  | basic bd =>
    rw [hd] at hi hn
    dsimp only at hi hn ⊢
    cases hn
    exact ⟨_, fromNode_basic hi.1, hne, ⟨hi.1.lists, rfl, hi.1.isDir⟩, hi.2⟩
  | hamt h =>
    rw [hd] at hi hn
    obtain ⟨lg, hlg, hp, hi⟩ := hi
    dsimp only at hn ⊢
    generalize hF : h.shard.toNode env.ref c.st = F at hn ⊢
    obtain ⟨r, st'⟩ := F
    obtain ⟨_, _, h3⟩ := snode hp env.ref hi hF
    rcases h3 with ⟨nd', s', rfl, hl, hi'⟩ | ⟨rfl, hf⟩
    · dsimp only at hn ⊢
      cases hn
      exact ⟨_, fromNode_hamt hl, hne, lg, hlg, hp, hi'⟩
    · cases hn

/-- C52: on the node that `GetNode` returns after any history of a directory, `NewUnixfsFile` gives a
directory in which `Find` finds what the last successful update of the name left. -/
theorem C52_directory (hv : env.Valid lg) (hr : env.Real) (hd : newDirectoryFromNode (.proto data ls b) = .ok (.basic d)) (hu : (ls.map Link.name).Nodup)
    (hne : [] ∉ ls.map Link.name) (hn : NoEmptyName ops) (hH : env'.H = env.H) (hw : env'.Works)
    (hg : (exec env' .getNode (execAll env ops (start (.basic d) thr))).1 = .node nd) :
    ∃ d', newUnixfsFile net t nd = .ok (.dir d' (i64 nd.size.toNat)) ∧
      ∀ k, (exec env' (.find k) { (exec env' .getNode (execAll env ops (start (.basic d) thr))).2 with dir := d' }).1 = match mapAfter env (mapOf ls) ops (start (.basic d) thr) k with | some v => .node v.2 | none => .fail .notExist := by
  obtain ⟨M', h1, h2⟩ := execAll_dspec (W := (· = lg)) (bo := none) hr rfl hv.hp hv.width (by simp) ops (c := start (.basic d) thr) ⟨mapOf_empty hne, (loaded_inv hd hu).1, by simp [Plain]⟩ hn (by simp)
  rw [← h2.after]
  have h3 : DInv env' (· = lg) none (execAll env ops (start (.basic d) thr)).dir (execAll env ops (start (.basic d) thr)).st M' := by
    rw [DInv.eq_def, hH]; exact h1
  obtain ⟨d', h4, h5⟩ := node_opens h3 hg
  refine ⟨d', (C52_dir _ _).mpr ⟨h4, rfl⟩, fun k => ?_⟩
  obtain ⟨M'', _, hs, _⟩ := find_spec (c := { (exec env' .getNode (execAll env ops (start (.basic d) thr))).2 with dir := d' }) (M := M') h5 k
  generalize exec env' (.find k) { (exec env' .getNode (execAll env ops (start (.basic d) thr))).2 with dir := d' } = R at hs
  obtain ⟨r, c'⟩ := R
  cases hs with
  | find h => rw [h]
  | findAbsent h => rw [h]
  | findFail h =>
    cases h with
    | fetch h => obtain ⟨u, x, _, _, h⟩ := h; rw [hw.net] at h; cases h
    | add h => obtain ⟨u, _, _, h⟩ := h; rw [hw.ref] at h; cases h
    | enum h1 h2 h => rcases h with ⟨x, h⟩ | h; exacts [absurd h (hw.bad _ _), absurd h (hw.cancel _)]

theorem reader_sane : ∀ (nd : Node) (t : Nat) (e : Err), newDagReader net t nd = .error e → e.Sane := by
  refine Node.rec (motive_1 := fun nd => ∀ (t : Nat) (e : Err), newDagReader net t nd = .error e → e.Sane)
    (motive_2 := fun l => ∀ (t : Nat) (e : Err), newDagReader net t l.target = .error e → e.Sane)
    (motive_3 := fun ls => ∀ (t : Nat) (e : Err), newDagReaderMeta net t ls = .error e → e.Sane) ?_ ?_ ?_ ?_ ?_ ?_
  · intro d ls b ih t e h
    rw [newDagReader] at h
    split at h
    · cases h; rename_i hf; exact fromBytes_sane hf
    · split at h
      · cases h
      split at h
      · cases h; exact ⟨by simp, by simp⟩
      split at h
      · exact ih t e h
      split at h <;> cases h <;> exact ⟨by simp, by simp⟩
  · intro d b t e h; rw [newDagReader] at h; cases h
  · intro d t e h; rw [newDagReader] at h; cases h; exact ⟨by simp, by simp⟩
  · intro n sz nd ih t e h; exact ih t e h
  · intro t e h; rw [newDagReaderMeta] at h; cases h; exact ⟨by simp, by simp⟩
  · intro l ls ih _ t e h
    cases l
    rw [newDagReaderMeta] at h
    split at h
    · split at h
      · exact ih _ e h
      · cases h; exact ⟨by simp, by simp⟩
    · cases h; exact ⟨by simp, by simp⟩

/-- C52: for every node, also a malformed one, `NewUnixfsFile` returns a file, a directory, a symlink
or an error; it does not panic. -/
theorem C52_no_panic : NoPanic (newUnixfsFile net t nd) := by
  have hs : ∀ e, newUnixfsFile net t nd = .error e → e.Sane := by
    intro e h
    have hopen : ∀ nd, newUnixfsFile.open_ net t nd = .error e → e.Sane := by
      intro nd h
      rw [newUnixfsFile.open_] at h
      split at h
      · cases h; rename_i h; exact reader_sane _ _ _ h
      · cases h
    cases nd with
    | raw d b => rw [newUnixfsFile] at h; exact hopen _ h
    | other d => rw [newUnixfsFile] at h; cases h; exact ⟨by simp, by simp⟩
    | proto d ls b =>
      rw [newUnixfsFile] at h
      split at h
      · cases h; rename_i h; exact fromBytes_sane h
      · rename_i fs hfs
        split at h
        · rw [newUnixfsDir] at h
          split at h
          · cases h
            rename_i h
            rw [newDirectoryFromNode, hfs] at h
            dsimp only at h
            split at h
            · cases h
            · split at h
              · split at h
                · cases h; rename_i h; exact load_sane h
                · cases h
              · cases h; exact ⟨by simp, by simp⟩
          · cases h
        · split at h
          · cases h
          · exact hopen _ h
  exact ⟨fun h => (hs _ h).1 rfl, fun h => (hs _ h).2 rfl⟩

/-! ### C53: iteration

`ls` and `fin` are what `ForEachLink` of the directory goes through and returns. By `File.forEach_stop`
these do not depend on the function that `Entries` passes to it, up to the point where that function fails
because of a cancellation. `It.Steps` are runs of the producer goroutine and the client in any interleaving. -/

variable {fin : Option Err} {n : Nat} {g g' : It}

/-- The steps of an iteration over one link, a raw block. -/
theorem exIter : ∃ n g, It.Steps goodNet n (It.start [.mk [1] 1 (exNd 7)] none) g ∧ (∃ f, g.log = [.no none, .yes [1] f]) ∧ g.cancelled = false := by
  have h0 := It.Steps.zero (net := goodNet) (It.start [.mk [1] 1 (exNd 7)] none)
  have h1 := It.Steps.own h0 (.send rfl rfl (by decide))
  have h2 := It.Steps.client h1 (.call rfl rfl)
  have h3 := It.Steps.own h2 (.recv rfl rfl rfl)
  have h4 := It.Steps.own h3 (.finish rfl)
  have h5 := It.Steps.client h4 (.call rfl rfl)
  have h6 := It.Steps.own h5 (.prodRet rfl rfl)
  have h7 := It.Steps.own h6 (.sendErr rfl rfl)
  have h8 := It.Steps.own h7 (.recvNil rfl rfl rfl)
  have h9 := It.Steps.own h8 (.closeErr rfl)
  have h10 := It.Steps.own h9 (.closeFiles rfl)
  have h11 := It.Steps.own h10 (.recvClosed rfl rfl rfl rfl)
  exact ⟨_, _, .own h11 (.bothNil rfl rfl rfl), ⟨_, rfl⟩, rfl⟩

/-- `Next` is called once more. -/
theorem exAgain : ∃ n g, It.Steps goodNet n (It.start [.mk [1] 1 (exNd 7)] none) g ∧ ∃ f, g.log = [.no none, .no none, .yes [1] f] := by
  have h0 := It.Steps.zero (net := goodNet) (It.start [.mk [1] 1 (exNd 7)] none)
  have h1 := It.Steps.own h0 (.send rfl rfl (by decide))
  have h2 := It.Steps.client h1 (.call rfl rfl)
  have h3 := It.Steps.own h2 (.recv rfl rfl rfl)
  have h4 := It.Steps.own h3 (.finish rfl)
  have h5 := It.Steps.client h4 (.call rfl rfl)
  have h6 := It.Steps.own h5 (.prodRet rfl rfl)
  have h7 := It.Steps.own h6 (.sendErr rfl rfl)
  have h8 := It.Steps.own h7 (.recvNil rfl rfl rfl)
  have h9 := It.Steps.own h8 (.closeErr rfl)
  have h10 := It.Steps.own h9 (.closeFiles rfl)
  have h11 := It.Steps.own h10 (.recvClosed rfl rfl rfl rfl)
  have h12 := It.Steps.own h11 (.bothNil rfl rfl rfl)
  have h13 := It.Steps.client h12 (.call rfl rfl)
  exact ⟨_, _, .own h13 (.bothNil rfl rfl rfl), _, rfl⟩

/-- `ForEachLink` fails after the link. -/
theorem exFailing : ∃ n g, It.Steps goodNet n (It.start [.mk [1] 1 (exNd 7)] (some .notFound)) g ∧ .no (some .notFound) ∈ g.log := by
  have h0 := It.Steps.zero (net := goodNet) (It.start [.mk [1] 1 (exNd 7)] (some .notFound))
  have h1 := It.Steps.own h0 (.send rfl rfl (by decide))
  have h2 := It.Steps.client h1 (.call rfl rfl)
  have h3 := It.Steps.own h2 (.recv rfl rfl rfl)
  have h4 := It.Steps.own h3 (.finish rfl)
  have h5 := It.Steps.client h4 (.call rfl rfl)
  have h6 := It.Steps.own h5 (.prodRet rfl rfl)
  have h7 := It.Steps.own h6 (.sendErr rfl rfl)
  exact ⟨_, _, .own h7 (.recvErr rfl rfl rfl), .head _⟩

/-- C53: what was delivered so far are the first links, each once and in order, each with its name
and the node it points to. -/
theorem C53_in_order (h : It.Steps net n (It.start ls fin) g) : ∃ pre post, ls = pre ++ post ∧ List.Forall₂ (Opened net) pre g.delivered := by
  obtain ⟨pre, lost, h1, h2, _⟩ := (steps_inv h).cover
  exact ⟨pre, lost ++ g.cons.held ++ g.buf ++ g.todo, by rw [← h1]; simp [List.append_assoc], h2⟩

example : ∃ n g, It.Steps goodNet n (It.start [.mk [1] 1 (exNd 7)] none) g ∧ ∃ pre post, ([.mk [1] 1 (exNd 7)] : List Link) = pre ++ post ∧ List.Forall₂ (Opened goodNet) pre g.delivered := by
  obtain ⟨n, g, h, _⟩ := exIter
  exact ⟨n, g, h, C53_in_order h⟩

/-- C53: if `Next` has returned `false` and `Err` is nil, every link was delivered, and `ForEachLink`
did not fail. -/
theorem C53_complete (h : It.Steps net n (It.start ls fin) g) (hl : .no none ∈ g.log) : List.Forall₂ (Opened net) ls g.delivered ∧ fin = none := by
  have hi := steps_inv h
  obtain ⟨he, h2⟩ := hi.over none hl
  obtain ⟨hf, hn⟩ := h2 rfl
  obtain ⟨hfc, hb⟩ := hi.files hf
  obtain ⟨pre, lost, h1, h2, h3⟩ := hi.cover
  have hp := hi.prod
  unfold ProdInv at hp
  split at hp
  · rw [hp.2.2.1] at hfc; cases hfc
  · rw [hp.2.2.2.1] at hfc; cases hfc
  · obtain ⟨e, a1, _, _, a4⟩ := hp
    rcases a4 with ⟨_, a4⟩ | ⟨_, _, a4⟩
    · rw [hn] at a4; cases a4
    · have hnone : e = none := by
        by_contra hne
        obtain ⟨x, hx⟩ := Option.ne_none_iff_exists'.mp hne
        exact a4 ⟨x, hx⟩ he
      subst hnone
      rcases a1 with ⟨ht, hfin⟩ | ⟨hx, _⟩
      · have hheld : g.cons.held = [] := by
          cases hc : g.cons with
          | idle => rfl
          | loop => rfl
          | got l => have := hi.got l hc; rw [hf] at this; cases this
        rw [h3 he, hheld, hb, ht] at h1
        simp only [List.append_nil] at h1
        rw [← h1]
        exact ⟨h2, hfin.symm⟩
      · cases hx

example : ∃ n g, It.Steps goodNet n (It.start [.mk [1] 1 (exNd 7)] none) g ∧ List.Forall₂ (Opened goodNet) [.mk [1] 1 (exNd 7)] g.delivered := by
  obtain ⟨n, g, h, ⟨f, hl⟩, _⟩ := exIter
  exact ⟨n, g, h, (C53_complete h (by simp [hl])).1⟩

/-- C53: an error is reported only for a reason. -/
theorem C53_error (h : It.Steps net n (It.start ls fin) g) {e : Err} (hl : .no (some e) ∈ g.log) : Cause net ls fin g.cancelled e := by
  have hi := steps_inv h
  exact hi.cause e (hi.over _ hl).1

example : ∃ n g e, It.Steps goodNet n (It.start [.mk [1] 1 (exNd 7)] (some .notFound)) g ∧ .no (some e) ∈ g.log ∧ Cause goodNet [.mk [1] 1 (exNd 7)] (some .notFound) g.cancelled e := by
  obtain ⟨n, g, h, hl⟩ := exFailing
  exact ⟨n, g, _, h, hl, C53_error h hl⟩

/-- C53: once `Next` has returned `false`, it returns `false` with the same `Err` ever after. (`log` has
the last result first.) -/
theorem C53_sticky (h : It.Steps net n (It.start ls fin) g) {a b' : List NextRes} {e : Option Err} (hl : g.log = a ++ .no e :: b') : ∀ x ∈ a, x = .no e :=
  (steps_inv h).sticky a e b' hl

example : ∃ n g, It.Steps goodNet n (It.start [.mk [1] 1 (exNd 7)] none) g ∧ ∃ f, g.log = [.no none, .no none, .yes [1] f] ∧ ∀ x ∈ [NextRes.no none], x = .no none := by
  obtain ⟨n, g, h, f, hl⟩ := exAgain
  exact ⟨n, g, h, f, hl, C53_sticky h (a := [.no none]) hl⟩

/-- C53: after more calls of `Next` than there are links, one has returned `false`. -/
theorem C53_ends (h : It.Steps net n (It.start ls fin) g) (hl : ls.length < g.log.length) : ∃ e, .no e ∈ g.log := by
  by_contra hc
  push Not at hc
  obtain ⟨pre, lost, h1, h2, _⟩ := (steps_inv h).cover
  have h3 : ∀ log : List NextRes, (∀ e, .no e ∉ log) → (log.filterMap (fun r => match r with | .yes n f => some (n, f) | .no _ => none)).length = log.length := by
    intro log
    induction log with
    | nil => intro _; rfl
    | cons x log ih =>
      intro hx
      have := ih (fun e he => hx e (by simp [he]))
      cases x with
      | yes n f => simp [this]
      | no e => exact absurd (by simp) (hx e)
  have h4 : g.delivered.length = g.log.length := by
    exact (h3 g.log.reverse (fun e he => hc e (by simpa using he))).trans List.length_reverse
  have h5 := h2.length_eq
  have h6 : pre.length ≤ ls.length := by rw [← h1]; simp
  omega

example : ∃ n g, It.Steps goodNet n (It.start [.mk [1] 1 (exNd 7)] none) g ∧ ∃ e, .no e ∈ g.log := by
  obtain ⟨n, g, h, ⟨f, hl⟩, _⟩ := exIter
  exact ⟨n, g, h, C53_ends h (by simp [hl])⟩

/-- C53: if nothing fails and nobody cancels, then the `false` of `Next` comes after all links, with no error. -/
theorem C53_all (h : It.Steps net n (It.start ls none) g) (hnet : ∀ u, ∀ l ∈ ls, net u l.target = true)
    (ho : ∀ u, ∀ l ∈ ls, ∃ f, newUnixfsFile net u l.target = .ok f) (hc : g.cancelled = false) {e : Option Err} (hl : .no e ∈ g.log) :
    e = none ∧ List.Forall₂ (Opened net) ls g.delivered := by
  cases e with
  | none => exact ⟨rfl, (C53_complete h hl).1⟩
  | some e =>
    exfalso
    rcases C53_error h hl with ⟨_, h1⟩ | h1 | ⟨l, hm, ⟨_, u, h1⟩ | ⟨u, h1⟩⟩
    · rw [hc] at h1; cases h1
    · cases h1
    · rw [hnet u l hm] at h1; cases h1
    · obtain ⟨f, hf⟩ := ho u l hm; rw [hf] at h1; cases h1

example : ∃ n g, It.Steps goodNet n (It.start [.mk [1] 1 (exNd 7)] none) g ∧ List.Forall₂ (Opened goodNet) [.mk [1] 1 (exNd 7)] g.delivered := by
  obtain ⟨n, g, h, ⟨f, hl⟩, hc⟩ := exIter
  refine ⟨n, g, h, (C53_all h (fun _ _ _ => rfl) (fun u l hx => ?_) hc (e := none) (by simp [hl])).2⟩
  cases List.mem_singleton.mp hx
  exact ⟨_, rfl⟩

/-- C53: a call of `Next` returns. From any state of a run the producer and a pending `Next` together make
at most `2 * ls.length + 8` steps, and as long as `Next` is pending one of them can make a step. -/
theorem C53_next_returns (h : It.Steps net n (It.start ls fin) g) :
    (∀ m g', It.Owns net m g g' → m ≤ 2 * ls.length + 8) ∧ (g.cons ≠ .idle → ∃ g', It.Own net g g') := by
  have hi := steps_inv h
  refine ⟨fun m g' hm => ?_, own_progress hi⟩
  have h1 := owns_bound hm
  obtain ⟨pre, lost, h2, _, _⟩ := hi.cover
  have h3 : ls.length = pre.length + lost.length + g.cons.held.length + g.buf.length + g.todo.length := by rw [← h2]; simp only [List.length_append]
  have h4 : g.prod.rank ≤ 4 := by cases g.prod <;> simp [Prod.rank]
  have h5 : g.cons.rank ≤ 2 := by cases g.cons <;> simp [Cons.rank]
  have h6 : (if g.filesNil = true then 0 else 1) ≤ 1 := by split <;> omega
  have h7 : (if g.errNil = true then 0 else 1) ≤ 1 := by split <;> omega
  simp only [It.measure] at h1
  omega

example : ∃ n g, It.Steps goodNet n (It.start [.mk [1] 1 (exNd 7)] none) g ∧ g.cons ≠ .idle ∧ ∃ g', It.Own goodNet g g' := by
  have h := It.Steps.client (.zero (net := goodNet) (It.start [.mk [1] 1 (exNd 7)] none)) (.call rfl rfl)
  exact ⟨_, _, h, by simp, (C53_next_returns h).2 (by simp)⟩

/-- C53: iterating the directory after any history: if the iteration ends without an error, the entries it
delivered are those of the directory, each once. `env'` is the environment of the iteration. -/
theorem C53_directory (hv : env.Valid lg) (hr : env.Real) (hd : newDirectoryFromNode (.proto data ls b) = .ok (.basic d)) (hu : (ls.map Link.name).Nodup)
    (hne : [] ∉ ls.map Link.name) (hn : NoEmptyName ops) (hH : env'.H = env.H)
    (h : It.Steps net n (It.start (linksAndError env' (execAll env ops (start (.basic d) thr))).1 (linksAndError env' (execAll env ops (start (.basic d) thr))).2) g)
    (hl : .no none ∈ g.log) :
    ∃ links, Lists (mapAfter env (mapOf ls) ops (start (.basic d) thr)) links ∧ List.Forall₂ (Opened net) links g.delivered := by
  obtain ⟨M', h1, h2⟩ := execAll_dspec (W := (· = lg)) (bo := none) hr rfl hv.hp hv.width (by simp) ops (c := start (.basic d) thr) ⟨mapOf_empty hne, (loaded_inv hd hu).1, by simp [Plain]⟩ hn (by simp)
  rw [← h2.after]
  have h3 : DInv env' (· = lg) none (execAll env ops (start (.basic d) thr)).dir (execAll env ops (start (.basic d) thr)).st M' := by
    rw [DInv.eq_def, hH]; exact h1
  obtain ⟨hcomp, hfin⟩ := C53_complete h hl
  refine ⟨_, ?_, hcomp⟩
  obtain ⟨M'', _, hs, _⟩ := forEach_spec h3 (fun _ => false)
  rw [linksAndError] at hfin ⊢
  dsimp only at hfin ⊢
  simp only [exec] at hs
  generalize forEachLink env' (execAll env ops (start (.basic d) thr)) (fun _ => false) = R at hs hfin ⊢
  obtain ⟨l, e, c'⟩ := R
  dsimp only at hs hfin ⊢
  subst hfin
  generalize hx : DRes.list l none = x at hs
  cases hs with
  | each h _ => cases hx; exact h
  | eachStop _ _ _ => cases hx
  | eachFail _ _ _ => cases hx

example : ∃ env n g, It.Steps goodNet n (It.start (linksAndError env (execAll env [.add [2] (exNd 8), .remove [2]] (start (.basic (.ofNode folderPBData [.mk [1] 1 (exNd 7)] .v0)) 500))).1 none) g ∧
    ∃ links, Lists (mapAfter env (mapOf [.mk [1] 1 (exNd 7)]) [.add [2] (exNd 8), .remove [2]] (start (.basic (.ofNode folderPBData [.mk [1] 1 (exNd 7)] .v0)) 500)) links ∧
      List.Forall₂ (Opened goodNet) links g.delivered := by
  obtain ⟨env, ⟨E, B, C, rfl⟩, hr, hw⟩ := exists_ex
  obtain ⟨n, g, h, ⟨f, hl⟩, _⟩ := exIter
  have he : linksAndError (exEnv.other E B C) (execAll (exEnv.other E B C) [.add [2] (exNd 8), .remove [2]] (start (.basic (.ofNode folderPBData [.mk [1] 1 (exNd 7)] .v0)) 500)) =
      ([.mk [1] 1 (exNd 7)], none) := rfl
  have hd : newDirectoryFromNode (.proto folderPBData [.mk [1] 1 (exNd 7)] .v0) = .ok (.basic (.ofNode folderPBData [.mk [1] 1 (exNd 7)] .v0)) := by
    rw [newDirectoryFromNode, folder_isDir.choose_spec.1]
    dsimp only
    rw [if_pos folder_isDir.choose_spec.2]
  refine ⟨_, n, g, by rw [he]; exact h, C53_directory (data := folderPBData) (lg := 3) (env' := exEnv.other E B C) (b := .v0) (IsEx.valid ⟨E, B, C, rfl⟩) hr hd (by simp) (by simp [Link.name]) (by simp [NoEmptyName, DOp.target]) rfl (by rw [he]; exact h) (by simp [hl])⟩

/-! ### C68: the producer ends -/

/-- C68, what holds: when nothing can move any more, the producer has ended if the context was cancelled,
if `Next` has said that the iteration is over, or if there are at most 4 links. Missing: an iteration that
is given up, or ends with an error, see `C68_violated`. -/
theorem C68_ends_partial (h : It.Steps net n (It.start ls fin) g) (hq : ∀ g', ¬ It.Own net g g') (hc : g.cancelled = true ∨ .no none ∈ g.log ∨ ls.length ≤ prefetchFiles) :
    g.prod = .done := by
  have hi := steps_inv h
  have hp := hi.prod
  cases hx : g.prod with
  | done => rfl
  | closedErr => exact absurd (.closeFiles hx) (hq _)
  | sent => exact absurd (.closeErr hx) (hq _)
  | ret e => rw [ProdInv, hx] at hp; exact absurd (.sendErr hx hp.2.1) (hq _)
  | each =>
    exfalso
    cases ht : g.todo with
    | nil => exact hq _ (.prodRet hx ht)
    | cons l todo =>
      rcases hc with hc | hc | hc
      · exact hq _ (.prodCancel hx ht hc)
      · have := (hi.files ((hi.over none hc).2 rfl).1).1
        rw [ProdInv, hx] at hp
        rw [hp.2.2.1] at this; cases this
      · refine hq _ (.send hx ht ?_)
        obtain ⟨pre, lost, h2, _, _⟩ := hi.cover
        have h3 : ls.length = pre.length + lost.length + g.cons.held.length + g.buf.length + g.todo.length := by rw [← h2]; simp only [List.length_append]
        rw [ht, List.length_cons] at h3
        omega

/-- Without further calls, a run comes to an end. -/
theorem runs_out (h : It.Steps net n (It.start ls fin) g) : ∃ m g', It.Steps net m (It.start ls fin) g' ∧ ∀ g'', ¬ It.Own net g' g'' := by
  by_contra hc
  push Not at hc
  have : ∀ m, ∃ k g', It.Steps net k (It.start ls fin) g' ∧ It.Owns net m g g' := by
    intro m
    induction m with
    | zero => exact ⟨n, g, h, .zero _⟩
    | succ m ih =>
      obtain ⟨k, g', h1, h2⟩ := ih
      obtain ⟨g'', h3⟩ := hc k g' h1
      exact ⟨_, g'', .own h1 h3, .succ h2 h3⟩
  obtain ⟨_, g', _, h2⟩ := this (2 * ls.length + 9)
  have := (C53_next_returns h).1 _ g' h2
  omega

example : ∃ n g, It.Steps goodNet n (It.start [.mk [1] 1 (exNd 7)] none) g ∧ g.prod = .done := by
  obtain ⟨n, g, h, ⟨f, hl⟩, _⟩ := exIter
  obtain ⟨m, g', h', hq⟩ := runs_out h
  exact ⟨m, g', h', C68_ends_partial h' hq (.inr (.inr (by decide)))⟩

/-- The state of `C68_violated`. -/
structure Blocked (g : It) : Prop where
  prod : g.prod = .each
  buf : g.buf.length = prefetchFiles
  todo : g.todo ≠ []
  err : ∃ e, g.err = some e
  cons : g.cons = .idle

theorem blocked_stays {m : Nat} {g g' : It} (hb : Blocked g) (h : It.Steps net m g g') (hc : g'.cancelled = false) : Blocked g' := by
  induction h with
  | zero => exact hb
  | own _ hs ih =>
    rename_i g1 g2 _
    have hc1 : g1.cancelled = false := by
      rw [← hc]
      cases hs with
      | finish hx => rw [It.finish]; repeat' split
                     all_goals rfl
      | _ => rfl
    have ih := ih hb hc1
    obtain ⟨e, he⟩ := ih.err
    cases hs with
    | prodCancel hp ht hc' => rw [hc1] at hc'; cases hc'
    | send hp ht hlen => rw [ih.buf] at hlen; exact absurd hlen (lt_irrefl _)
    | prodRet hp ht => exact absurd ht ih.todo
    | sendErr hp _ => rw [ih.prod] at hp; cases hp
    | closeErr hp => rw [ih.prod] at hp; cases hp
    | closeFiles hp => rw [ih.prod] at hp; cases hp
    | bothNil hx _ _ => rw [ih.cons] at hx; cases hx
    | recv hx _ _ => rw [ih.cons] at hx; cases hx
    | recvClosed hx _ _ _ => rw [ih.cons] at hx; cases hx
    | recvNil hx _ _ => rw [ih.cons] at hx; cases hx
    | recvErr hx _ _ => rw [ih.cons] at hx; cases hx
    | recvErrClosed hx _ _ _ => rw [ih.cons] at hx; cases hx
    | finish hx => rw [ih.cons] at hx; cases hx
  | client _ hs ih =>
    rename_i g1 g2 _
    cases hs with
    | callErr hx he => have ih := ih hb hc; exact ⟨ih.prod, ih.buf, ih.todo, ih.err, ih.cons⟩
    | call hx he => have ih := ih hb hc; obtain ⟨e, h⟩ := ih.err; rw [he] at h; cases h
    | cancel => cases hc

/-- C68 is violated: a directory with six links of which the first cannot be opened. `Next` has returned
`false` with an error, so the client is done; unless the context is cancelled, the producer goroutine is
blocked for ever, whatever the client does. -/
theorem C68_violated : ∃ (ls : List Link) (n : Nat) (g : It), It.Steps goodNet n (It.start ls none) g ∧ (∃ e, .no (some e) ∈ g.log) ∧
    ∀ m g', It.Steps goodNet m g g' → g'.cancelled = false → g'.prod ≠ .done := by
  let x : Link := .mk [1] 1 (exNd 7)
  have h0 := It.Steps.zero (net := goodNet) (It.start [.mk [0] 1 (.other []), x, x, x, x, x] none)
  have h1 := It.Steps.own h0 (.send rfl rfl (by decide))
  have h2 := It.Steps.client h1 (.call rfl rfl)
  have h3 := It.Steps.own h2 (.recv rfl rfl rfl)
  have h4 := It.Steps.own h3 (.finish rfl)
  have h5 := It.Steps.own h4 (.send rfl rfl (by decide))
  have h6 := It.Steps.own h5 (.send rfl rfl (by decide))
  have h7 := It.Steps.own h6 (.send rfl rfl (by decide))
  have h8 := It.Steps.own h7 (.send rfl rfl (by decide))
  refine ⟨_, _, _, h8, ⟨_, .head _⟩, fun m g' h hc => ?_⟩
  have := blocked_stays ⟨rfl, rfl, by simp [It.finish, goodNet, It.start, newUnixfsFile], ⟨_, rfl⟩, rfl⟩ h hc
  rw [this.prod]; simp

end Unixfs.Props
