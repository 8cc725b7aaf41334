import Verif.Dir.Hist
import Verif.Hamt.Share
import Verif.Spec.DirBuilder

/-! # The CID builder of a directory (C94)

The definitions in this file belong to proofs; they model no code.
-/

namespace Unixfs.Hamt

theorem withSlots_builder (s : Shard) (bf : Bytes) (l : List Slot) : (s.withSlots bf l).builder = s.builder := by cases s; rfl
theorem setChild_builder (s c : Shard) (i : Nat) : (s.setChild c i).builder = s.builder := withSlots_builder _ _ _
theorem setLink_builder (s : Shard) (l : Link) (i : Nat) : (s.setLink l i).builder = s.builder := withSlots_builder _ _ _

theorem insert_builder {s s' : Shard} {key : Bytes} {lnk : Option Link} {idx : Nat} (h : s.insert key lnk idx = .ok s') : s'.builder = s.builder := by
  unfold Shard.insert at h
  split at h
  · cases h
  · split at h
    · cases h
    · simp only at h
      split at h
      · cases h
      · cases h; exact withSlots_builder _ _ _

theorem rm_builder {s s' : Shard} {idx : Nat} (h : s.rm idx = .ok s') : s'.builder = s.builder := by
  unfold Shard.rm at h
  simp only at h
  split at h
  · cases h
  · cases h; exact withSlots_builder _ _ _

theorem get_builder {net : Net} {s c s' : Shard} {i t t' : Nat} (h : s.get net i t = (.ok (c, s'), t')) : s'.builder = s.builder := by
  unfold Shard.get at h
  split at h
  · cases h
  · cases h; rfl
  · split at h
    · cases h
    · split at h
      · split at h
        · cases h
        · cases h; exact setChild_builder _ _ _
      · cases h
    · split at h
      · cases h
      · cases h; exact setChild_builder _ _ _

theorem collapse_builder (s child : Shard) (idx i : Nat) (old : Option Link) : (s.collapse idx i child old).2.builder = s.builder := by
  unfold Shard.collapse
  split
  · split
    · rfl
    · next h => exact rm_builder h
  · dsimp only
    split
    · exact setChild_builder _ _ _
    · rfl
  · split
    · rfl
    · exact setLink_builder _ _ _
    · rfl
  · rfl

/-- A change below a shard leaves its builder. -/
theorem swapValue_builder (H : Hash) (net : Net) (f : Nat) (s : Shard) (consumed : Nat) (key : Bytes) (value : Option Link) (t : Nat) :
    (s.swapValue H net f consumed key value t).2.1.builder = s.builder := by
  cases f with
  | zero => rfl
  | succ f =>
    unfold Shard.swapValue
    split
    · rfl
    split
    · split
      · rfl
      · next h => exact insert_builder h
    simp only
    split
    · rfl
    · next child s1 t1 hg =>
      have h1 := get_builder hg
      split
      · split
        · split
          · split
            · exact h1
            · next h => exact (rm_builder h).trans h1
          · exact (setChild_builder _ _ _).trans h1
        · split
          · exact h1
          · split
            · exact h1
            · split
              · exact h1
              · split
                · exact h1
                · exact (setChild_builder _ _ _).trans h1
      · split
        · exact (setChild_builder _ _ _).trans h1
        · split
          · exact (setChild_builder _ _ _).trans h1
          · exact ((collapse_builder _ _ _ _ _).trans (setChild_builder _ _ _)).trans h1

theorem getValue_builder (H : Hash) (net : Net) (f : Nat) (s : Shard) (consumed : Nat) (key : Bytes) (t : Nat) :
    (s.getValue H net f consumed key t).2.1.builder = s.builder := by
  cases f with
  | zero => rfl
  | succ f =>
    unfold Shard.getValue
    split
    · rfl
    split
    · rfl
    simp only
    split
    · rfl
    · next hg =>
      have h1 := get_builder hg
      split
      · split <;> exact h1
      · exact (setChild_builder _ _ _).trans h1

theorem eachLoop_builder {net : Net} {step} : ∀ (is : List Nat) (s : Shard) (st : EachSt), (eachLoop net step is s st).2.1.builder = s.builder
  | [], s, st => rfl
  | i :: is, s, st => by
    unfold eachLoop
    split
    · rfl
    · next hg =>
      have h1 := get_builder hg
      split
      · exact (setChild_builder _ _ _).trans h1
      · exact (eachLoop_builder is _ _).trans ((setChild_builder _ _ _).trans h1)

theorem forEach_builder (net : Net) (cb : Nat → Bool) (s : Shard) (t : Nat) : (s.forEachLink net cb t).2.1.builder = s.builder := by
  unfold Shard.forEachLink
  generalize s.depth = f
  cases f with
  | zero => rfl
  | succ f => unfold forEachF; exact eachLoop_builder _ _ _

theorem setLinkOp_builder (H : Hash) (net : Net) (s : Shard) (name : Bytes) (l : Link) (t : Nat) : (s.setLinkOp H net name l t).2.1.builder = s.builder := by
  have := swapValue_builder H net (Shard.fuel H name) s 0 name (some (Link.rename l (linkNamePrefix s.size 0 ++ name))) t
  unfold Shard.setLinkOp
  split <;> (next h => rw [h] at this; exact this)

theorem swap_builder (H : Hash) (net : Net) (ref : Nat → Bool) (s : Shard) (name : Bytes) (nd : Node) (t : Nat) (st : List Node) :
    (s.swap H net ref name nd t st).2.1.builder = s.builder := by
  unfold Shard.swap
  split
  · rfl
  · exact swapValue_builder _ _ _ _ _ _ _ _

theorem load_builder {d : Bytes} {ls : List Link} {b : Builder} {s : Shard} (h : newHamtFromDag (.proto d ls b) = .ok s) : s.builder = some b := by
  unfold newHamtFromDag at h
  split at h
  · cases h
  split at h
  · cases h
  split at h
  · cases h
  split at h
  · cases h
  cases h; rfl

theorem toNode_builder {ref : Nat → Bool} {s : Shard} {st st' : List Node} {n : Node} (h : s.toNode ref st = (.ok n, st')) :
    ∃ d ls, n = .proto d ls (pbBuilder s.builder) := by
  cases s
  unfold Shard.toNode at h
  split at h
  · cases h
  · split at h
    · cases h
    · split at h
      · cases h
      · cases h; exact ⟨_, _, rfl⟩

/-- All sub-shards of a canonical trie have its builder. -/
theorem subShard_builder {H : Hash} {lg : Nat} (hp : HP H lg) (n : Nat) : ∀ (d : Nat) (P : Bytes → Prop) (b : Builder) (cs : List Kid) (x : Node), WF (hix H lg) (2 ^ lg) n d P cs →
    Canon b n cs → SubShard (digits (2 ^ lg)) ((Trie.node b cs).toN (2 ^ lg)) x → Dir.madeWith x = some b := by
  induction n with
  | zero => intro d P b cs x hw; exact hw.elim
  | succ n ih =>
    intro d P b cs x hwf hk hx
    rw [Trie.toN] at hx
    cases hx with
    | self => rfl
    | link hl hn h =>
      rename_i l
      rw [kidLinks_eq] at hl
      obtain ⟨⟨i, t⟩, hm, rfl⟩ := List.mem_map.mp hl
      have hg := mem_kget hwf.sorted hm
      have hi := (hwf.2 _ hm).1
      simp only [Kid.idx_mk] at hi
      simp only [Link.name, Kid.idx_mk, List.length_append, prefix_length hp.valid hi, maxpadlen_digits hp.valid] at hn
      cases t with
      | leaf k v =>
        have := (hwf.leaf hg).2.2.2
        simp only [Kid.trie_mk, Trie.tkey] at hn
        exact absurd (List.length_eq_zero_iff.mp (by omega)) this
      | node b' cs' =>
        simp only [Kid.trie_mk, Link.target] at h
        obtain ⟨rfl, _, hc⟩ := hk _ _ _ hg
        exact ih _ _ _ _ _ (hwf.node hg).2 hc h

end Unixfs.Hamt

namespace Unixfs.Dir
open Unixfs.Hamt hiding exec execAll results NoEmptyName lastWrite Cfg

/-- The builder of the node of a directory. -/
def builtBy : Dir → Builder
  | .basic d => d.builder
  | .hamt h => pbBuilder h.shard.builder

theorem computeEstimatedSize_builder (d : Basic) : d.computeEstimatedSize.builder = d.builder := by
  unfold Basic.computeEstimatedSize
  have : ∀ (ls : List Link) (d : Basic), (ls.foldl (fun d l => d.addToEstimatedSize l.name l.target) d).builder = d.builder := by
    intro ls
    induction ls with
    | nil => intro d; rfl
    | cons l ls ih => intro d; rw [List.foldl_cons, ih]; rfl
  exact this _ _

theorem removeChild_builder (d : Basic) (name : Bytes) : (d.removeChild name).2.builder = d.builder := by
  unfold Basic.removeChild
  split
  · rfl
  · simp only [Basic.removeFromEstimatedSize]
    split
    · exact computeEstimatedSize_builder _
    · rfl

theorem addLinkChild_builder (d : Basic) (name : Bytes) (link : Link) : (d.addLinkChild name link).2.builder = d.builder := by
  have hr := removeChild_builder d name
  unfold Basic.addLinkChild
  simp only
  split
  · split
    · exact hr
    · exact hr
  · exact hr

theorem setLinks_builder (env : Env) : ∀ (ls : List Link) (s s' : Shard) (t t' : Nat), Basic.setLinks env ls s t = (.ok s', t') → s'.builder = s.builder
  | [], s, s', t, t', h => by cases h; rfl
  | l :: ls, s, s', t, t', h => by
    unfold Basic.setLinks at h
    have := setLinkOp_builder env.H env.net s l.name l t
    split at h
    · cases h
    · next h1 => rw [h1] at this; exact (setLinks_builder env ls _ _ _ _ h).trans this

theorem switchToSharding_builder (env : Env) {d : Basic} {t t' : Nat} {h : HamtDir} (he : d.switchToSharding env t = (.ok h, t')) : h.shard.builder = some d.builder := by
  unfold Basic.switchToSharding at he
  split at he
  · cases he
  · next s _ =>
    split at he
    · cases he
    · next h1 => cases he; refine (setLinks_builder env _ _ _ _ _ h1).trans ?_; cases s; rfl

theorem addLinks_builder : ∀ (ls : List Link) (b b' : Basic), HamtDir.addLinks ls b = .ok b' → b'.builder = b.builder
  | [], b, b', h => by cases h; rfl
  | l :: ls, b, b', h => by
    unfold HamtDir.addLinks at h
    have := addLinkChild_builder b l.name l
    split at h
    · cases h
    · next h1 => rw [h1] at this; exact (addLinks_builder ls _ b' h).trans this

theorem switchToBasic_builder (env : Env) (d : HamtDir) (t : Nat) :
    (d.switchToBasic env t).2.1.shard.builder = d.shard.builder ∧ ∀ b, (d.switchToBasic env t).1 = .ok b → b.builder = pbBuilder d.shard.builder := by
  have h := forEach_builder env.net (fun _ => false) d.shard t
  unfold HamtDir.switchToBasic
  split
  · next h' => rw [h'] at h; exact ⟨h, by simp⟩
  · next h' => rw [h'] at h; exact ⟨h, fun b hb => addLinks_builder _ _ _ hb⟩

theorem needs_builder (env : Env) (d : HamtDir) (thr : Int) (name : Bytes) (nd : Option Node) (t k : Nat) :
    (d.needsToSwitchToBasicDir env thr name nd t k).2.1.shard.builder = d.shard.builder := by
  have hf := getValue_builder env.H env.net (Shard.fuel env.H name) d.shard 0 name t
  have hdec : ∀ (d : HamtDir) op t, (HamtDir.needsToSwitchToBasicDir.decide env thr k d op t).2.1 = d := by
    intro d op t
    unfold HamtDir.needsToSwitchToBasicDir.decide
    split <;> rfl
  unfold HamtDir.needsToSwitchToBasicDir
  split
  · rfl
  · simp only
    split
    · exact hf
    · rw [hdec]; exact hf
    · rw [hdec]; exact hf
    · exact hf

theorem hamt_add_builder (env : Env) (d : HamtDir) (name : Bytes) (nd : Node) (t : Nat) (st : List Node) :
    (d.addChild env name nd t st).2.1.shard.builder = d.shard.builder := by
  have := swap_builder env.H env.net env.ref d.shard name nd t st
  unfold HamtDir.addChild
  split <;> (next h => rw [h] at this; exact this)

theorem hamt_remove_builder (env : Env) (d : HamtDir) (name : Bytes) (t : Nat) : (d.removeChild env name t).2.1.shard.builder = d.shard.builder := by
  have := swapValue_builder env.H env.net (Shard.fuel env.H name) d.shard 0 name none t
  unfold HamtDir.removeChild
  split <;> (next h => rw [show d.shard.take env.H env.net name t = d.shard.swapValue env.H env.net (Shard.fuel env.H name) 0 name none t from rfl] at h; rw [h] at this; exact this)

theorem addChild_builder (env : Env) (c : Cfg) (name : Bytes) (nd : Node) {B : Builder} (hB : pbBuilder (some B) = B) (hc : builtBy c.dir = B) :
    builtBy (addChild env c name nd).2.dir = B := by
  unfold addChild
  split
  · next h he =>
    rw [he] at hc
    have h1 := needs_builder env h c.thr name (some nd) c.t c.k
    split
    · next h' => rw [h'] at h1; simp only [builtBy] at hc ⊢; rw [h1, hc]
    · next h0 t k h' =>
      rw [h'] at h1
      have h2 := switchToBasic_builder env h0 t
      simp only at h1
      split
      · next h'' => rw [h''] at h2; simp only [builtBy] at hc ⊢; rw [h2.1, h1, hc]
      · next b _ _ h'' =>
        rw [h''] at h2
        have h3 := addLinkChild_builder b name (makeLink [] nd)
        split
        · simp only [builtBy] at hc ⊢; rw [h2.1, h1, hc]
        · next h3' =>
          rw [Basic.addChild] at h3'
          rw [h3'] at h3
          simp only [builtBy] at hc ⊢
          rw [h3, h2.2 _ rfl, h1, hc]
    · next h0 t k h' =>
      rw [h'] at h1
      simp only [builtBy] at hc ⊢
      rw [hamt_add_builder, h1, hc]
  · next b he =>
    rw [he] at hc
    split
    · simp only [builtBy] at hc ⊢
      rw [Basic.addChild, addLinkChild_builder, hc]
    · split
      · rw [he]; exact hc
      · next h t h' =>
        have h1 := switchToSharding_builder env h'
        have h2 := hamt_add_builder env h name nd t c.st
        split
        · dsimp only; rw [he]; exact hc
        · next h3 =>
          rw [h3] at h2
          simp only [builtBy] at hc ⊢
          rw [h2, h1, hc, hB]

theorem removeChild_builder' (env : Env) (c : Cfg) (name : Bytes) {B : Builder} (hc : builtBy c.dir = B) : builtBy (removeChild env c name).2.dir = B := by
  unfold removeChild
  split
  · next b he =>
    rw [he] at hc
    simp only [builtBy] at hc ⊢
    rw [removeChild_builder, hc]
  · next h he =>
    rw [he] at hc
    have h1 := needs_builder env h c.thr name none c.t c.k
    split
    · next h' => rw [h'] at h1; simp only [builtBy] at hc ⊢; rw [h1, hc]
    · next h0 t k h2 =>
      rw [h2] at h1
      simp only [builtBy] at hc ⊢
      rw [hamt_remove_builder, h1, hc]
    · next h0 t k h' =>
      rw [h'] at h1
      have h2 := switchToBasic_builder env h0 t
      simp only at h1
      split
      · next h'' => rw [h''] at h2; simp only [builtBy] at hc ⊢; rw [h2.1, h1, hc]
      · next b _ _ h'' =>
        rw [h''] at h2
        have h3 := removeChild_builder b name
        split
        · simp only [builtBy] at hc ⊢; rw [h2.1, h1, hc]
        · next h3' =>
          rw [h3'] at h3
          simp only [builtBy] at hc ⊢
          rw [h3, h2.2 _ rfl, h1, hc]

theorem load_dir_builder {data : Bytes} {ls : List Link} {B : Builder} (hB : pbBuilder (some B) = B) {d : Dir} (h : newDirectoryFromNode (.proto data ls B) = .ok d) : builtBy d = B := by
  unfold newDirectoryFromNode at h
  split at h
  · cases h
  · split at h
    · cases h; exact computeEstimatedSize_builder _
    · split at h
      · split at h
        · cases h
        · next hl => cases h; simp only [builtBy]; rw [load_builder hl, hB]
      · cases h

theorem getNode_builder (env : Env) {c c' : Cfg} {n : Node} (h : getNode env c = (.ok n, c')) : (∃ d ls, n = .proto d ls (builtBy c.dir)) ∧ c'.dir = c.dir := by
  unfold getNode at h
  split at h
  · next he => cases h; exact ⟨by rw [he]; exact ⟨_, _, rfl⟩, rfl⟩
  · next hd he =>
    cases hr : hd.shard.toNode env.ref c.st with
    | mk r st =>
      rw [hr] at h
      cases h
      exact ⟨by rw [he]; exact toNode_builder hr, rfl⟩

theorem exec_builder (env : Env) (op : DOp) (c : Cfg) {B : Builder} (hB : pbBuilder (some B) = B) (hc : builtBy c.dir = B) :
    builtBy (exec env op c).2.dir = lastBuilder B [op] := by
  cases op with
  | add name nd =>
    have := addChild_builder env c name nd hB hc
    simp only [exec, lastBuilder]
    split <;> (next h => rw [h] at this; exact this)
  | remove name =>
    have := removeChild_builder' env c name hc
    simp only [exec, lastBuilder]
    split <;> (next h => rw [h] at this; exact this)
  | find name =>
    have : builtBy (find env c name).2.dir = B := by
      unfold find
      split
      · next he => exact hc
      · next h he =>
        rw [he] at hc
        have hf := getValue_builder env.H env.net (Shard.fuel env.H name) h.shard 0 name c.t
        rw [show h.shard.getValue env.H env.net (Shard.fuel env.H name) 0 name c.t = h.shard.find env.H env.net name c.t from rfl] at hf
        simp only [HamtDir.find]
        simp only [builtBy] at hc ⊢
        split <;> (next h => rw [h] at hf; simp only at hf ⊢; rw [hf, hc])
    simp only [exec, lastBuilder]
    split <;> (next h => rw [h] at this; exact this)
  | links =>
    simp only [exec, links, lastBuilder]
    split <;> exact hc
  | forEach cb =>
    simp only [exec, forEachLink, lastBuilder]
    split
    · exact hc
    · next h he =>
      rw [he] at hc
      simp only [builtBy] at hc ⊢
      rw [forEach_builder, hc]
  | getNode =>
    have : (getNode env c).2.dir = c.dir := by
      unfold getNode
      split <;> rfl
    simp only [exec, lastBuilder]
    split <;> (next h => rw [h] at this; simp only at this ⊢; rw [this]; exact hc)
  | reload =>
    have : (getNode env c).2.dir = c.dir := by
      unfold getNode
      split <;> rfl
    simp only [exec, lastBuilder]
    split
    · next h => rw [h] at this; simp only at this ⊢; rw [this]; exact hc
    · next nd c' h =>
      obtain ⟨⟨d, ls, rfl⟩, h2⟩ := getNode_builder env h
      split
      · next hl => rw [hc] at hl; exact load_dir_builder hB hl
      · rw [h2]; exact hc
  | setCidBuilder b =>
    simp only [exec, setCidBuilder, lastBuilder]
    split
    · rfl
    · next h _ => cases hs : h.shard; simp only [builtBy, Shard.setCidBuilder, Shard.builder]
  | setThreshold n => exact hc

theorem lastBuilder_fix {B : Builder} (hB : pbBuilder (some B) = B) (op : DOp) : pbBuilder (some (lastBuilder B [op])) = lastBuilder B [op] := by
  cases op <;> first | exact hB | exact pbBuilder_fix _

theorem lastBuilder_cons (B : Builder) (op : DOp) (ops : List DOp) : lastBuilder B (op :: ops) = lastBuilder (lastBuilder B [op]) ops := by
  cases op <;> rfl

theorem execAll_builder (env : Env) : ∀ (ops : List DOp) (c : Cfg) {B : Builder}, pbBuilder (some B) = B → builtBy c.dir = B →
    builtBy (execAll env ops c).dir = lastBuilder B ops
  | [], c, B, _, hc => hc
  | op :: ops, c, B, hB, hc => by
    rw [lastBuilder_cons]
    exact execAll_builder env ops _ (lastBuilder_fix hB op) (exec_builder env op c hB hc)

end Unixfs.Dir
