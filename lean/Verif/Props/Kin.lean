import Verif.Mod.Kin
import Verif.Props.Mod
import Verif.Props.Crash

/-! # C95, C96: the blocks of an edited file are of the kind of the file

`Kin`, `NotRaw`, `LeafRaw`, `Throughout` and `rootBuilder` are in `Verif.Spec.Kin`. The environments are
arbitrary: requests may fail at any point.

The definitions in this file belong to statements; they model no code.
-/

namespace Unixfs.Props
open Unixfs.Spec Unixfs.Import Unixfs.Mod

theorem throughout_iff {P : Node → Prop} {n : Node} : Throughout P n ↔ P n ∧ ∀ l ∈ n.links, Throughout P l.target := by
  constructor
  · exact fun h => ⟨h n (.refl _), fun l hl x hx => h x (.step hl hx)⟩
  · rintro ⟨h1, h2⟩ x hx
    cases hx with
    | refl => exact h1
    | step hl hr => exact h2 _ hl _ hr

theorem withCodec_twice (b : Builder) : (b.withCodec Builder.rawCodec).withCodec Builder.rawCodec = b.withCodec Builder.rawCodec := by
  simp only [Builder.withCodec]
  split <;> simp_all

theorem rootBuilder_codec (n : Node) : (rootBuilder n).codec = 0x70 := by cases n <;> rfl

/-- The blocks of one kind, for `Kin` and a further condition `Q`. -/
theorem kin_family {B : Builder} (hB : B.codec = 0x70) {raw st : Bool} (hi : st = true → raw = true) {Q : Node → Prop}
    (h1 : ∀ d ls, (st = true → ls ≠ []) → Q (.proto d ls B)) (h2 : ∀ d ls b, Q (.proto d ls b) → st = true → ls ≠ [])
    (h3 : raw = true → ∀ d b, Q (.raw d b)) (h4 : ∀ d b d' b', Q (.raw d b) → Q (.raw d' b'))
    (h5 : ∀ d, Q (.other d)) : Family (Throughout (fun x => Kin B x ∧ Q x)) B raw st where
  imp := hi
  codec := hB
  proto := fun d ls hf hl => throughout_iff.mpr ⟨⟨rfl, h1 d ls hf⟩, hl⟩
  inv := fun d ls b h => ⟨(throughout_iff.mp h).1.1, (throughout_iff.mp h).2⟩
  same := fun d ls b h => h2 d ls b (throughout_iff.mp h).1.2
  leaf := fun hr d => throughout_iff.mpr ⟨⟨rfl, h3 hr _ _⟩, by simp [Node.links]⟩
  edit := fun d b d' h => throughout_iff.mpr ⟨⟨by rw [show b = _ from (throughout_iff.mp h).1.1]; exact withCodec_twice B, h4 _ _ _ _ (throughout_iff.mp h).1.2⟩, by simp [Node.links]⟩
  other := fun d => throughout_iff.mpr ⟨⟨trivial, h5 d⟩, by simp [Node.links]⟩

/-- A history of a modifier. -/
theorem history_kin {T : Node → Prop} {B : Builder} {raw st : Bool} (hF : Family T B raw st) {env : Mod.Env} :
    ∀ (ops : List MOp) (dm : DM), MKin T B raw dm → MKin T B raw (dm.run env ops).2 ∧ ∀ r ∈ (dm.run env ops).1, ∀ n, r.node = some n → T n
  | [], _, hm => ⟨hm, by simp [DM.run]⟩
  | op :: ops, dm, hm => by
    have hs := step_kin (env := env) hF op hm
    have ih := history_kin (env := env) hF ops _ hs
    refine ⟨ih.1, ?_⟩
    intro r hr n hn
    simp only [DM.run, List.mem_cons] at hr
    rcases hr with rfl | hr
    · cases op with
      | getNode =>
        simp only [DM.step] at hn
        split at hn
        · next k dm' h =>
          cases hn
          have : (dm.step env .getNode).2 = dm' := by simp [DM.step, h]
          rw [this] at hs
          have : n = dm'.cur := by
            unfold DM.getNode at h
            split at h <;> cases h
            rfl
          rw [this]; exact hs.cur
        · cases hn
      | write b => simp only [DM.step, MRes.num] at hn; split at hn <;> cases hn
      | writeAt b off => simp only [DM.step, MRes.num] at hn; split at hn <;> cases hn
      | read k => cases hn
      | seek off wh => simp only [DM.step, MRes.num] at hn; split at hn <;> cases hn
      | truncate s => simp only [DM.step, MRes.unit] at hn; split at hn <;> cases hn
      | sync => simp only [DM.step, MRes.unit] at hn; split at hn <;> cases hn
      | size => simp only [DM.step, MRes.num] at hn; split at hn <;> cases hn
      | hasChanges => cases hn
    · exact ih.2 r hr n hn

theorem new_kin {T : Node → Prop} {root : Node} {dm : DM} (h : newDagModifier root = .ok dm) (ht : T root) :
    MKin T (rootBuilder root) (decide ((rootBuilder root).version > 0)) dm := by
  unfold newDagModifier at h
  split at h <;> cases h
  all_goals exact ⟨rfl, rfl, ht, by simp [All]⟩

/-- Both kinds of observation of a history. -/
theorem observed_kin {T : Node → Prop} {root : Node} {st : Bool} (hF : Family T (rootBuilder root) (decide ((rootBuilder root).version > 0)) st)
    {env : Mod.Env} (ht : T root) (ops : List MOp) :
    (∀ x ∈ storedBy env root ops, T x) ∧ ∀ r ∈ results env root ops, ∀ n, r.node = some n → T n := by
  unfold storedBy results
  split
  · next dm h =>
    have := history_kin (env := env) hF ops dm (new_kin h ht)
    exact ⟨this.1.all, this.2⟩
  · simp

theorem kin_only {B : Builder} : Throughout (fun x => Kin B x ∧ True) = Throughout (Kin B) := by
  funext n
  simp only [and_true]

theorem kin_root (root : Node) : Family (Throughout (Kin (rootBuilder root))) (rootBuilder root) (decide ((rootBuilder root).version > 0)) false := by
  have := kin_family (raw := decide ((rootBuilder root).version > 0)) (st := false) (Q := fun _ => True) (rootBuilder_codec root) (by simp) (by simp) (by simp) (by simp) (by simp) (by simp)
  rwa [kin_only] at this

/-- A DAG of height one. -/
theorem flat {P : Node → Prop} {n : Node} (h : P n ∧ ∀ l ∈ n.links, P l.target ∧ l.target.links = []) : Throughout P n :=
  throughout_iff.mpr ⟨h.1, fun l hl => throughout_iff.mpr ⟨(h.2 l hl).1, by rw [(h.2 l hl).2]; simp⟩⟩

instance {B : Builder} {n : Node} : Decidable (Kin B n) := by cases n <;> simp only [Kin] <;> infer_instance
instance {n : Node} : Decidable (NotRaw n) := by cases n <;> simp only [NotRaw] <;> infer_instance
instance {n : Node} : Decidable (LeafRaw n) := by cases n <;> simp only [LeafRaw] <;> infer_instance

/-- A file of two raw leaves with CIDv1. -/
def wRawTen : Node := wFile true [[48, 49, 50, 51, 52], [53, 54, 55, 56, 57]]

/-- An overwriting, an appending, an extending and a truncating call. -/
def wEdits : List MOp := [.seek 3 0, .write [88, 89, 90], .seek 0 2, .write [65], .truncate 14, .truncate 7, .getNode]

/-- The CID versions of some blocks. -/
def versions (ns : List Node) : List Nat := ns.map (fun n => match n with | .proto _ _ b => b.version | .raw _ b => b.version | .other _ => 9)

/-- Property C95 (stored blocks). If the CIDs of all blocks of a file are made with the version and hash
function of its root, so are those of all blocks that a modifier of the file stores, and of all blocks
below them, in every history of calls. -/
theorem C95_stored (env : Mod.Env) {root : Node} (h : Throughout (Kin (rootBuilder root)) root) (ops : List MOp) :
    ∀ x ∈ storedBy env root ops, Throughout (Kin (rootBuilder root)) x :=
  (observed_kin (kin_root root) h ops).1

/-- C95: the hypotheses are met by files with either version, and the modifier stores blocks. -/
example : Throughout (Kin (rootBuilder wTen)) wTen ∧ versions (storedBy wEnv wTen wEdits) = [0, 0, 0, 0, 0, 0, 0, 0, 0, 0] ∧
    Throughout (Kin (rootBuilder wRawTen)) wRawTen ∧ versions (storedBy wEnv wRawTen wEdits) = [1, 1, 1, 1, 1, 1, 1, 1, 1, 1] :=
  ⟨flat (by decide +kernel), by decide +kernel, flat (by decide +kernel), by decide +kernel⟩

/-- Property C95 (results). So are those of all blocks of the nodes that `GetNode` returns. -/
theorem C95_getNode (env : Mod.Env) {root : Node} (h : Throughout (Kin (rootBuilder root)) root) (ops : List MOp) :
    ∀ r ∈ results env root ops, ∀ n, r.node = some n → Throughout (Kin (rootBuilder root)) n :=
  (observed_kin (kin_root root) h ops).2

/-- C95: the history of the example returns a node. -/
example : (results wEnv wRawTen wEdits).map (fun r => (r.node.map (fun n => n.links.length), r.err)) =
    [(none, none), (none, none), (none, none), (none, none), (none, none), (none, none), (some 2, none)] := by decide +kernel

/-- Property C95 (`Append`). The same for `trickle.Append` with a builder of this version and hash function,
whether with raw leaves or not, and a positive maximum of links. -/
theorem C95_append {B : Builder} (hB : B.codec = 0x70) {p : Params} (hp : p.cidBuilder = some B) (hm : 0 < p.maxlinks) {chunks : List Bytes} {fin : Option Err}
    {db db' : DB} (hnew : p.new none chunks fin = .ok db) (budget : Option Nat) (net : Node → Bool) {fuel h : Nat} {base r : Node}
    (hr : Trickle.append fuel h base { { db with addBudget := budget } with canGet := net } = .ok (r, db')) (hb : Throughout (Kin B) base) :
    Throughout (Kin B) r ∧ ∀ x ∈ db'.added, Throughout (Kin B) x.node := by
  have hF : Family (Throughout (Kin B)) B p.rawLeaves false := by
    have := kin_family (raw := p.rawLeaves) (st := false) (Q := fun _ => True) hB (by simp) (by simp) (by simp) (by simp) (by simp) (by simp)
    rwa [kin_only] at this
  obtain ⟨h1, h2, h3⟩ := fresh_kin hnew
  have := Trickle.append_kin hF hr hb ⟨h1.trans hp, h2, by dsimp only; rw [h3]; exact hm, by simp [DB.ids, fresh_safe hnew]⟩
  exact ⟨this.1, fun x hx => this.2.all _ (List.mem_map_of_mem hx)⟩

/-- C95: an `Append` to the file with CIDv1. -/
example : (match ({ maxlinks := 2, cidBuilder := some (rootBuilder wRawTen), rawLeaves := true } : Params).new none [[1], [2]] none with
    | .ok db => match Trickle.append 9 9 wRawTen db with
      | .ok (r, db') => (r.links.length, versions (r :: db'.added.map Built.node))
      | .error _ => (0, [])
    | .error _ => (0, [])) = (3, [1, 1, 1, 1]) := by decide +kernel

/-- Property C96, in full: edits keep the format of the leaves. -/
def LeafFormatKept (env : Mod.Env) (root : Node) (ops : List MOp) : Prop :=
  (Throughout NotRaw root → ∀ x ∈ storedBy env root ops, Throughout NotRaw x) ∧
  (Throughout LeafRaw root → ∀ x ∈ storedBy env root ops, Throughout LeafRaw x)

/-- Property C96, the case of CIDv0 files without raw blocks: none of the blocks stored is raw. (For CIDv0
files with raw leaves, see `C96_violated_v0`.) -/
theorem C96_plain_partial (env : Mod.Env) {root : Node} (hv : (rootBuilder root).version = 0)
    (h : Throughout (fun x => Kin (rootBuilder root) x ∧ NotRaw x) root) (ops : List MOp) :
    (∀ x ∈ storedBy env root ops, Throughout NotRaw x) ∧ ∀ r ∈ results env root ops, ∀ n, r.node = some n → Throughout NotRaw n := by
  have hF : Family (Throughout (fun x => Kin (rootBuilder root) x ∧ NotRaw x)) (rootBuilder root) (decide ((rootBuilder root).version > 0)) false :=
    kin_family (rootBuilder_codec root) (by simp) (by simp [NotRaw]) (by simp) (by simp [hv]) (by simp [NotRaw]) (by simp [NotRaw])
  have := observed_kin (env := env) hF h ops
  exact ⟨fun x hx y hy => (this.1 x hx y hy).2, fun r hr n hn y hy => (this.2 r hr n hn y hy).2⟩

/-- C96: the hypotheses are met. -/
example : (rootBuilder wTen).version = 0 ∧ Throughout (fun x => Kin (rootBuilder wTen) x ∧ NotRaw x) wTen ∧
    (storedBy wEnv wTen wEdits).length = 10 :=
  ⟨by decide +kernel, flat (by decide +kernel), by decide +kernel⟩

/-- Property C96, the case of files that are not CIDv0 and whose leaves are all raw: the leaves below
every block stored are raw. (For files that are not CIDv0 and have other leaves, see `C96_violated_v1`.) -/
theorem C96_raw_partial (env : Mod.Env) {root : Node} (hv : (rootBuilder root).version > 0)
    (h : Throughout (fun x => Kin (rootBuilder root) x ∧ LeafRaw x) root) (ops : List MOp) :
    (∀ x ∈ storedBy env root ops, Throughout LeafRaw x) ∧ ∀ r ∈ results env root ops, ∀ n, r.node = some n → Throughout LeafRaw n := by
  have hF : Family (Throughout (fun x => Kin (rootBuilder root) x ∧ LeafRaw x)) (rootBuilder root) (decide ((rootBuilder root).version > 0)) true :=
    kin_family (rootBuilder_codec root) (by simp [hv]) (by simp [LeafRaw]) (by simp [LeafRaw]) (by simp [LeafRaw]) (by simp [LeafRaw]) (by simp [LeafRaw])
  have := observed_kin (env := env) hF h ops
  exact ⟨fun x hx y hy => (this.1 x hx y hy).2, fun r hr n hn y hy => (this.2 r hr n hn y hy).2⟩

/-- C96: the hypotheses are met. -/
example : (rootBuilder wRawTen).version > 0 ∧ Throughout (fun x => Kin (rootBuilder wRawTen) x ∧ LeafRaw x) wRawTen ∧
    (storedBy wEnv wRawTen wEdits).length = 10 :=
  ⟨by decide +kernel, flat (by decide +kernel), by decide +kernel⟩

/-- What `balanced.Layout` makes of two chunks with the given options. -/
def wMade (raw : Bool) (b : Option Builder) : Node :=
  match Balanced.layout 5 { maxlinks := defaultLinksPerBlock, src := [[1, 2, 3], [4, 5, 6]], rawLeaves := raw, cidBuilder := b } with
  | .ok (r, _) => r.node
  | .error _ => .other []

/-- C96 is false of files with raw leaves and a CIDv0 root: what is appended is stored in dag-pb leaves
(`NewDagModifier` goes by the version of the root, mod/dagmodifier.go:64-87). -/
theorem C96_violated_v0 : Throughout LeafRaw (wMade true none) ∧ ¬ LeafFormatKept wEnv (wMade true none) [.seek 0 2, .write [7], .sync] := by
  have h0 : Throughout LeafRaw (wMade true none) := flat (by decide +kernel)
  refine ⟨h0, fun h => ?_⟩
  have h1 : ∃ x ∈ storedBy wEnv (wMade true none) [.seek 0 2, .write [7], .sync], ¬ LeafRaw x := by decide +kernel
  obtain ⟨x, hx, hn⟩ := h1
  exact hn (h.2 h0 x hx x (.refl _))

/-- C96 is false of files with CIDv1 and dag-pb leaves: what is appended is stored in raw leaves. -/
theorem C96_violated_v1 : Throughout NotRaw (wMade false (some { version := 1, codec := 0x70, mhType := 0x12, mhLen := 32 })) ∧
    ¬ LeafFormatKept wEnv (wMade false (some { version := 1, codec := 0x70, mhType := 0x12, mhLen := 32 })) [.seek 0 2, .write [7], .sync] := by
  have h0 : Throughout NotRaw (wMade false (some { version := 1, codec := 0x70, mhType := 0x12, mhLen := 32 })) := flat (by decide +kernel)
  refine ⟨h0, fun h => ?_⟩
  have h1 : ∃ x ∈ storedBy wEnv (wMade false (some { version := 1, codec := 0x70, mhType := 0x12, mhLen := 32 })) [.seek 0 2, .write [7], .sync], ¬ NotRaw x := by
    decide +kernel
  obtain ⟨x, hx, hn⟩ := h1
  exact hn (h.1 h0 x hx x (.refl _))

end Unixfs.Props
