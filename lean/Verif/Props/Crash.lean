import Verif.Dir.Crash
import Verif.Mod.Stored
import Verif.Props.Mod
import Verif.Props.Dir

/-!
# Crash consistency (C73–C75)

Blocks are stored bottom-up: whenever the process stops, no block in the store refers to a block that
is not there.
-/

namespace Unixfs.Props
open Unixfs.Spec Unixfs.Import

/-! ### C73: imports -/

theorem fresh_ids {p : Params} {path chunks fin budget db} (hf : Fresh p path chunks fin budget db) : db.ids = [] := by
  obtain ⟨db0, h, rfl⟩ := hf
  show db0.added.map Built.node = []
  rw [Mod.fresh_safe h]
  rfl

theorem fresh_start {S : Node → Prop} {p : Params} {path chunks fin budget db} (hf : Fresh p path chunks fin budget db) {ls : List Link} (hl : ∀ l ∈ ls, S l.target) :
    Safe S db ls := by
  refine ⟨by rw [fresh_ids hf]; exact .nil, fun l h => .inr (hl l h)⟩

variable {p : Params} {path : Option Bytes} {chunks : List Bytes} {fin : Option Err} {budget : Option Nat} {db db' : DB} {fuel : Nat}

/-- C73 for `balanced.Layout`: nothing has to be in the store before. -/
theorem C73_balanced {root : Built} (hf : Fresh p path chunks fin budget db) (h : Balanced.layout fuel db = .ok (root, db')) :
    CrashSafe (fun _ => False) (db'.added.map Built.node) :=
  (Balanced.layout_safe (S := fun _ => False) h (fresh_start hf (by simp))).crashSafe (fun _ _ h _ => h)

/-- C73 for `trickle.Layout`. -/
theorem C73_trickle {root : Node} (hf : Fresh p path chunks fin budget db) (h : Trickle.layout fuel db = .ok (root, db')) :
    CrashSafe (fun _ => False) (db'.added.map Built.node) :=
  (Trickle.layout_safe (S := fun _ => False) h (fresh_start hf (by simp))).crashSafe (fun _ _ h _ => h)

/-- C73 for `trickle.Append` to any node: only what is below that node must have been there. -/
theorem C73_append {base n : Node} {g : Node → Bool} {ht : Nat} (hf : Fresh p path chunks fin budget db)
    (h : Trickle.append fuel ht base { db with canGet := g } = .ok (n, db')) : CrashSafe (Below base) (db'.added.map Built.node) := by
  have hs : Safe (Below base) { db with canGet := g } base.links := by
    have := fresh_start (S := Below base) hf (ls := base.links) (fun l hl => ⟨l, hl, .refl _⟩)
    exact ⟨this.first, this.links⟩
  exact (Trickle.append_safe (below_complete base) h hs).safe.first.crashSafe (below_complete base)

/-- What is seen of stored nodes in the examples: the number of links of each. -/
def arity (st : List Node) : List Nat := st.map (fun n => n.links.length)

/-- The same for what an import stored; `none` if it failed. -/
def arityOf {α : Type} : Except Err (α × DB) → Option (List Nat)
  | .ok (_, db) => some (arity (db.added.map Built.node))
  | .error _ => none

/-- C73: five chunks with two links per node; the inner nodes come after their children, and the root
last. -/
example : Fresh { maxlinks := 2 } none [[1], [2], [3], [4], [5]] none none { maxlinks := 2, src := [[1], [2], [3], [4], [5]] } ∧
    arityOf (Balanced.layout 9 { maxlinks := 2, src := [[1], [2], [3], [4], [5]] }) = some [0, 0, 2, 0, 0, 2, 2, 0, 1, 1, 2] ∧
    arityOf (Trickle.layout 9 { maxlinks := 2, src := [[1], [2], [3], [4], [5]] }) = some [0, 0, 0, 0, 2, 0, 1, 4] ∧
    (match Trickle.layout 9 { maxlinks := 2, src := [[1], [2], [3]] } with
      | .ok (r, _) => arityOf (Trickle.append 9 9 r { maxlinks := 2, src := [[4], [5], [6]] })
      | _ => none) = some [0, 2, 0, 0, 2] := by
  refine ⟨⟨_, rfl, rfl⟩, ?_⟩
  decide +kernel

/-- The order matters: the same nodes with the root first are not safe. -/
example : ∃ r db', Trickle.layout 9 { maxlinks := 2, src := [[1], [2]] } = .ok (r, db') ∧
    ¬ CrashSafe (fun _ => False) (db'.added.map Built.node).reverse := by
  refine ⟨_, _, rfl, ?_⟩
  intro h
  have := h 1 _ (by rw [List.take_one]; exact Option.mem_toList.mpr rfl) _ (.step (List.mem_cons_self ..) (.refl _))
  revert this
  decide +kernel

/-! ### C74: files -/

section
open Unixfs.Mod

/-- C74: for every root node, every behaviour of the DAG service and the splitter and every history of
calls, whether they fail or not, if the DAG service refuses no block that a call of `Append` inside the
modifier hands it. -/
theorem C74_modifier_partial (env : Mod.Env) (hd : AppendsStored env) (root : Node) (ops : List MOp) : CrashSafe (Below root) (storedBy env root ops) := by
  have hnew : ∀ dm, newDagModifier root = .ok dm → MSafe (Below root) dm := by
    intro dm h
    unfold newDagModifier at h
    split at h
    · cases h
      exact ⟨.nil, fun l hl => .inr ⟨l, hl, .refl _⟩⟩
    · cases h
      exact ⟨.nil, fun l hl => .inr ⟨l, hl, .refl _⟩⟩
    · cases h
  unfold storedBy
  split
  · next dm h => exact (run_safe (below_complete root) hd ops dm (hnew dm h)).first.crashSafe (below_complete root)
  · exact ChildrenFirst.nil.crashSafe (below_complete root)

/-- The call reported no error; `Read` may report EOF. -/
def NoError (op : MOp) (r : MRes) : Prop := r.err = none ∨ (r.err = some .eof ∧ ∃ k, op = .read k)

theorem run_stored {env : Mod.Env} {S : Node → Prop} (hS : Complete S) (hsp : NoSplitEof env) : ∀ (ops : List MOp) (dm : DM), MStored S dm →
    List.Forall₂ NoError ops (dm.run env ops).1 → MStored S (dm.run env ops).2
  | [], _, hm, _ => hm
  | op :: ops, dm, hm, hf => by
    simp only [DM.run] at hf ⊢
    rcases hf with _ | ⟨h1, h2⟩
    exact run_stored hS hsp ops _ (step_stored hS hsp op h1 hm) h2

theorem new_stored {root : Node} {dm : DM} (h : newDagModifier root = .ok dm) : dm.cur = root ∧ dm.svc.stored = [] := by
  unfold newDagModifier at h
  split at h <;> cases h <;> exact ⟨rfl, rfl⟩

/-- C74 for histories without an error, on every DAG service and splitter. -/
theorem C74_no_error_partial (env : Mod.Env) (hsp : NoSplitEof env) (root : Node) (ops : List MOp) (hf : List.Forall₂ NoError ops (results env root ops)) :
    CrashSafe (Reach root) (storedBy env root ops) := by
  unfold results storedBy at *
  split
  · next dm h =>
    rw [h] at hf
    obtain ⟨h1, h2⟩ := new_stored h
    exact (run_stored (S := Reach root) (reach_complete root) hsp ops dm ⟨by rw [h2]; exact .nil, .inr (by rw [h1]; exact .refl _)⟩ hf).first.crashSafe (reach_complete root)
  · exact ChildrenFirst.nil.crashSafe (reach_complete root)

/-- C62: for every file, every DAG service and splitter, and every history of calls that reported no
error, every block of the node that `GetNode` returns was stored or belongs to the original file. -/
theorem C62_stored (env : Mod.Env) (hsp : NoSplitEof env) (root : Node) (ops : List MOp)
    (hf : List.Forall₂ NoError (ops ++ [.getNode]) (results env root (ops ++ [.getNode]))) :
    ∃ rs n, results env root (ops ++ [.getNode]) = rs ++ [{ node := some n }] ∧
      ∀ x, Reach n x → Reach root x ∨ x ∈ storedBy env root (ops ++ [.getNode]) := by
  cases h : newDagModifier root with
  | error e =>
    simp only [results, h] at hf
    have := hf.length_eq
    simp at this
  | ok dm =>
    simp only [results, storedBy, h] at hf ⊢
    obtain ⟨h1, h2⟩ := new_stored h
    have hm := run_stored (S := Reach root) (reach_complete root) hsp _ dm ⟨by rw [h2]; exact .nil, .inr (by rw [h1]; exact .refl _)⟩ hf
    rw [run_append] at hf hm ⊢
    obtain ⟨_, hl⟩ : True ∧ List.Forall₂ NoError [.getNode] ((dm.run env ops).2.run env [.getNode]).1 := by
      refine ⟨trivial, ?_⟩
      have := List.forall₂_iff_get.mp hf
      refine List.forall₂_iff_get.mpr ⟨by simp [DM.run], ?_⟩
      intro i hi hj
      have hlen : ((dm.run env ops).1).length = ops.length := by have := hf.length_eq; simp [DM.run] at this; omega
      simp only [List.length_singleton] at hi
      obtain rfl : i = 0 := by omega
      have := this.2 ops.length (by simp) (by simp [hlen, DM.run])
      simpa [List.getElem_append_right, hlen] using this
    dsimp only at hm ⊢
    generalize (dm.run env ops).2 = d at hl hm ⊢
    generalize (dm.run env ops).1 = rs
    simp only [DM.run] at hl hm ⊢
    rcases hl with _ | ⟨hl, _⟩
    replace hl := hl.resolve_right (by simp)
    simp only [DM.step] at hl hm ⊢
    cases hg : d.getNode env with
    | mk r dm' =>
      rw [hg] at hl hm
      cases r with
      | error e => simp at hl
      | ok n =>
        refine ⟨rs, n, rfl, ?_⟩
        have hn : n = dm'.cur := by
          unfold DM.getNode at hg
          split at hg
          · cases hg
          · cases hg; rfl
        dsimp only at hm ⊢
        intro x hx
        have := hm.first.crashSafe (reach_complete root)
        rcases hm.cur with hc | hc
        · rw [← hn] at hc
          have := this dm'.svc.stored.length n (by rwa [List.take_length]) x hx
          rw [List.take_length] at this
          exact this.symm
        · rw [← hn] at hc
          exact .inl (Spec.Reach.trans hc hx)

theorem wEnv_noSplitEof : NoSplitEof wEnv := fun _ => by simp [wEnv]

/-- C62, C74: the hypotheses are met also where the content is lost: extending a file of one chunk. -/
example : NoSplitEof wEnv ∧ List.Forall₂ NoError [.seek 2 0, .write [3], .read 9, .getNode] (results wEnv (wFile false [[1, 2]]) [.seek 2 0, .write [3], .read 9, .getNode]) := by
  refine ⟨wEnv_noSplitEof, ?_⟩
  have h : (results wEnv (wFile false [[1, 2]]) [.seek 2 0, .write [3], .read 9, .getNode]).map MRes.err = [none, none, some .eof, none] := by decide +kernel
  generalize results wEnv (wFile false [[1, 2]]) [.seek 2 0, .write [3], .read 9, .getNode] = rs at h
  rw [List.map_eq_cons_iff] at h
  obtain ⟨a, rs, rfl, h1, h⟩ := h
  rw [List.map_eq_cons_iff] at h
  obtain ⟨b, rs, rfl, h2, h⟩ := h
  rw [List.map_eq_cons_iff] at h
  obtain ⟨c, rs, rfl, h3, h⟩ := h
  rw [List.map_eq_cons_iff] at h
  obtain ⟨d, rs, rfl, h4, h⟩ := h
  obtain rfl := List.map_eq_nil_iff.mp h
  exact .cons (.inl h1) (.cons (.inl h2) (.cons (.inr ⟨h3, _, rfl⟩) (.cons (.inl h4) .nil)))

theorem wEnv_stored : AppendsStored wEnv := fun _ => rfl

/-- C74: the hypothesis is met; a write to the second chunk stores the leaf and then the root, an append
stores the new leaf and then the root. -/
example : AppendsStored wEnv ∧ arity (storedBy wEnv wTen [.seek 5 0, .write [88], .sync, .seek 0 2, .write [89], .sync]) = [0, 2, 2, 0, 3] := by
  refine ⟨wEnv_stored, ?_⟩
  decide +kernel

/-- The leaf of two zeros with which a file is extended from 10 to 12 bytes. -/
def wZeros : Node := .proto [8, 0, 18, 2, 0, 0, 24, 2] [] .v0

example : (storedBy wEnv wTen [.truncate 12]).head? = some wZeros := by decide +kernel

/-- The store refuses the leaf of zeros. `AddChild` (importer/helpers/dagbuilder.go:337-346) links a node
before it stores it, so that the link stays in the node of the modifier. -/
def wDebris : Mod.Env := { wEnv with
  budget := fun t => if t = 0 then some 0 else none }

/-- C74 is false after a failed extension with zeros: the next `Sync`, which succeeds, stores a root with
a link to a node that was never stored. -/
theorem C74_violated : (results wDebris wTen [.truncate 12, .write [88], .sync]).map seen = [(0, [], none, some .addFailed), (1, [], none, none), (0, [], none, none)] ∧
    ¬ CrashSafe (Below wTen) (storedBy wDebris wTen [.truncate 12, .write [88], .sync]) := by
  refine ⟨by decide +kernel, ?_⟩
  have h1 : ∃ x ∈ storedBy wDebris wTen [.truncate 12, .write [88], .sync], ∃ l ∈ x.links, l.target = wZeros := by decide +kernel
  have h2 : wZeros ∉ storedBy wDebris wTen [.truncate 12, .write [88], .sync] := by decide +kernel
  have h3 : ∀ l ∈ wTen.links, l.target.links = [] ∧ l.target ≠ wZeros := by decide +kernel
  intro h
  obtain ⟨x, hx, l, hl, hz⟩ := h1
  have := h (storedBy wDebris wTen [.truncate 12, .write [88], .sync]).length x (by rwa [List.take_length]) wZeros (.step hl (by rw [hz]; exact .refl _))
  rw [List.take_length] at this
  rcases this with h | ⟨l, hl, hr⟩
  · exact h2 h
  · obtain ⟨h4, h5⟩ := h3 l hl
    generalize l.target = a at hr h4 h5
    generalize wZeros = z at hr h5
    cases hr with
    | refl => exact h5 rfl
    | step hl' _ => rw [h4] at hl'; simp at hl'

end

/-! ### C75: directories -/

section
open Unixfs.Hamt hiding exec execAll results NoEmptyName lastWrite Cfg
open Unixfs.Dir

/-- What must have been in the store: what is below the node that the directory was loaded from, and
the children that the client adds. -/
def Given (n : Node) (ops : List DOp) (x : Node) : Prop := Below n x ∨ ∃ name nd, DOp.add name nd ∈ ops ∧ Reach nd x

theorem given_complete (n : Node) (ops : List DOp) : Complete (Given n ops) := by
  rintro x y (h | ⟨name, nd, h, h'⟩) hr
  · exact .inl (below_complete n x y h hr)
  · exact .inr ⟨name, nd, h, h'.trans hr⟩

theorem dir_safe (env : Dir.Env) {n : Node} {d : Dir} (hd : newDirectoryFromNode n = .ok d) (thr : Int) (ops ops' : List DOp) (hs : ∀ op ∈ ops, op ∈ ops') :
    DSafe (Given n ops') [] (execAll env ops (start d thr)) :=
  execAll_safe (given_complete n ops') env ops _ ⟨⟨[], rfl, ChildrenFirst.nil⟩, load_dir_in hd (fun l hl => .inr (.inl ⟨l, hl, .refl _⟩))⟩
    (fun name nd h => .inr ⟨name, nd, hs _ h, .refl _⟩)

theorem new_loaded : newDirectoryFromNode (.proto folderPBData [] .v0) = .ok newDirectory := by rfl

/-- C75: for every directory node, every environment (failing fetches, refused additions, any outcome of
the enumerations) and every history of calls, whether they fail or not. (`st` has the latest block
first.) -/
theorem C75_directory (env : Dir.Env) {n : Node} {d : Dir} (hd : newDirectoryFromNode n = .ok d) (thr : Int) (ops : List DOp) :
    CrashSafe (Given n ops) (execAll env ops (start d thr)).st.reverse := by
  obtain ⟨st1, h1, h2⟩ := (dir_safe env hd thr ops ops (fun _ h => h)).first
  rw [h1, List.append_nil]
  exact h2.crashSafe (given_complete n ops)

/-- C75 for a new directory. -/
theorem C75_new (env : Dir.Env) (thr : Int) (ops : List DOp) :
    CrashSafe (fun x => ∃ name nd, DOp.add name nd ∈ ops ∧ Reach nd x) (execAll env ops (start newDirectory thr)).st.reverse := by
  intro k x hx y hr
  refine (C75_directory env new_loaded thr ops k x hx y hr).imp id ?_
  rintro (⟨l, hl, _⟩ | h)
  · simp [Node.links] at hl
  · exact h

/-- C75: all that is below the node that `GetNode` returns is there. -/
theorem C75_getNode (env : Dir.Env) {n : Node} {d : Dir} (hd : newDirectoryFromNode n = .ok d) (thr : Int) (ops : List DOp) {nd : Node} {c' : Dir.Cfg}
    (h : exec env .getNode (execAll env ops (start d thr)) = (.node nd, c')) : ∀ y, Below nd y → y ∈ c'.st ∨ Given n ops y := by
  have hs := dir_safe env hd thr ops ops (fun _ h => h)
  have hg := getNode_safe (given_complete n ops) env hs
  simp only [exec] at h
  split at h
  · next nd' c'' he =>
    cases h
    rw [he] at hg
    rintro y ⟨l, hl, hr⟩
    exact (hg.1.first.complete (given_complete n ops) _ _ (hg.2 nd rfl l hl) hr).mem
  · cases h

/-- C75: a history that switches to a HAMT with two levels and serialises it twice; the children come
first. -/
example : arity (execAll exEnv (exCross ++ [.getNode]) (start newDirectory 50)).st.reverse = [0, 0, 2, 2, 1, 1, 1] ∧
    arity (execAll exEnv exReload (start newDirectory 50)).st.reverse = [0, 0, 2, 2, 1, 1, 1, 1, 2, 2, 1, 1, 1] := by
  decide +kernel

end

end Unixfs.Props
