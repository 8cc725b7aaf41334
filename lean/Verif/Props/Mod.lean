import Verif.Mod.Any
import Verif.Mod.Retry

/-! # C26–C33, C62–C65: `DagModifier`

The claims are false in general. The `_violated` theorems give a file and calls that all succeed and
do something else. The `_partial` theorems are what holds: `Growable` excludes files that are a single
leaf with data (and raw nodes), `Careful` calls avoid the places where the modifier loses track. -/

namespace Unixfs.Props
open Unixfs Unixfs.Import Unixfs.Spec Unixfs.Mod

variable {env : Env} {root : Node} {c : Bytes} {ops : List MOp}

/-- The DAG can be extended by the modifier. -/
abbrev Ext (root : Node) : Prop := Growable defaultLinksPerBlock root

/-! ### Files that can be extended -/

mutual
theorem Growable.mono {m m' : Nat} (h : m ≤ m') : ∀ {n : Node}, Growable m n → Growable m' n
  | .proto _ _ _, hg => by
    simp only [Growable] at hg ⊢
    exact ⟨hg.1, GrowableFrom.mono h hg.2⟩
  | .raw _ _, hg => by simp only [Growable] at hg
  | .other _, hg => by simp only [Growable] at hg
theorem GrowableFrom.mono {m m' : Nat} (h : m ≤ m') : ∀ {ls : List Link} {i : Nat}, GrowableFrom m i ls → GrowableFrom m' i ls
  | [], _, _ => by simp only [GrowableFrom]
  | .mk _ _ n :: ls, i, hg => by
    simp only [GrowableFrom] at hg ⊢
    exact ⟨fun hi => Growable.mono h (hg.1 (by omega)), GrowableFrom.mono h hg.2⟩
end

theorem forall2_length {α β : Type} {R : α → β → Prop} {a : List α} {b : List β} (h : List.Forall₂ R a b) : a.length = b.length := by
  induction h with
  | nil => rfl
  | cons _ _ ih => simp [ih]

section
variable {p : Params} {path : Option Bytes} {chunks : List Bytes} {fin : Option Err} {budget : Option Nat} {db db' : DB} {fuel : Nat}

/-- Files made by `trickle.Layout` can be extended. -/
theorem C32_trickle (hf : Fresh p path chunks fin budget db) (h1 : 1 ≤ p.maxlinks) (h2 : p.maxlinks ≤ defaultLinksPerBlock)
    (h : Trickle.layout fuel db = .ok (root, db')) : Ext root :=
  Growable.mono h2 (C16_verified_growable (C10_trickle_shape hf h1 h none (.inl rfl)))

example (root : Node) (db' : DB) (h : Trickle.layout 3 { maxlinks := 2, src := [[1], [2], [3]] } = .ok (root, db')) : Ext root :=
  C32_trickle (p := { maxlinks := 2 }) (path := none) (fin := none) (budget := none) ⟨_, rfl, rfl⟩ (by decide) (by decide) h

example : (match Trickle.layout 3 { maxlinks := 2, src := [[1], [2], [3]] } with | .ok _ => true | .error _ => false) = true := by decide +kernel

/-- Files of two chunks or more made by `balanced.Layout` can be extended. -/
theorem C32_balanced {root : Built} (hf : Fresh p path chunks fin budget db) (h1 : 2 ≤ p.maxlinks) (h2 : p.maxlinks ≤ defaultLinksPerBlock)
    (hch : 2 ≤ chunks.length) (h : Balanced.layout fuel db = .ok (root, db')) : Ext root.node := by
  obtain ⟨d, hb, _⟩ := C09_balanced_shape hf h1 h
  obtain ⟨hlv, hin⟩ := C15_balanced_kind hf h1 (by rintro rfl; simp at hch) h
  have hne : root.node.links ≠ [] := by
    intro hl
    have : (leaves root.node).length = 1 := by
      cases hn : root.node with
      | proto d ls b => rw [hn] at hl; simp only [Node.links] at hl; subst hl; simp [leaves]
      | raw d b => simp [leaves]
      | other d => simp [leaves]
    have := forall2_length hlv
    omega
  have hint : InternalFor p root.node := hin _ (by
    cases hn : root.node with
    | proto d ls b =>
      rw [hn] at hne
      cases ls with
      | nil => exact absurd rfl hne
      | cons l ls => simp [internals]
    | raw d b => rw [hn] at hne; exact absurd rfl hne
    | other d => rw [hn] at hne; exact absurd rfl hne)
  obtain ⟨dd, ls, m, e, hu, _, hd⟩ := hint
  cases d with
  | zero => exact absurd hb hne
  | succ d =>
    obtain ⟨pre, last, hl, hpre, _⟩ := hb
    rw [e] at hl ⊢
    simp only [Node.links] at hl
    show Growable _ _
    simp only [Growable]
    refine ⟨⟨m, hu, by rw [hd]; rfl⟩, growableFrom_small _ _ _ ?_⟩
    rw [hl]; simp; omega

example (root : Built) (db' : DB) (h : Balanced.layout 3 { maxlinks := 2, src := [[1], [2], [3]] } = .ok (root, db')) : Ext root.node :=
  C32_balanced (p := { maxlinks := 2 }) (path := none) (fin := none) (budget := none) (chunks := [[1], [2], [3]]) ⟨_, rfl, rfl⟩ (by decide) (by decide) (by decide) h

example : (match Balanced.layout 3 { maxlinks := 2, src := [[1], [2], [3]] } with | .ok _ => true | .error _ => false) = true := by decide +kernel

/-- The empty file made by `balanced.Layout` without raw leaves can be extended. -/
theorem C32_balanced_empty {root : Built} (hf : Fresh p path [] fin budget db) (h1 : 2 ≤ p.maxlinks) (hr : p.rawLeaves = false)
    (h : Balanced.layout fuel db = .ok (root, db')) : Ext root.node := by
  have := C15_balanced_empty hf h1 h
  rw [hr] at this
  obtain ⟨d, e, hu⟩ := this
  rw [e]
  show Growable _ _
  simp only [Growable, GrowableFrom, and_true]
  exact ⟨_, hu, rfl⟩

example (root : Built) (db' : DB) (h : Balanced.layout 3 { maxlinks := 2, src := [] } = .ok (root, db')) : Ext root.node :=
  C32_balanced_empty (p := { maxlinks := 2 }) (path := none) (fin := none) (budget := none) ⟨_, rfl, rfl⟩ (by decide) rfl h

example : (match Balanced.layout 3 { maxlinks := 2, src := [] } with | .ok _ => true | .error _ => false) = true := by decide +kernel

end

/-! ### The examples -/

/-- A DAG service and splitter that never fail; one chunk. -/
def wEnv : Env where
  get := fun _ _ => true
  put := fun _ => true
  budget := fun _ => none
  split := fun b => ([b], none)
  odd := fun _ => ({}, { root := .other [], size := 0, path := [], cur := none, offset := 0, tick := 0 })

theorem wEnv_ok : SplitOK wEnv ∧ NeverFails wEnv :=
  ⟨fun b => ⟨fun _ => by simp [wEnv], by simp [wEnv]⟩, fun _ _ => rfl, fun _ => rfl, fun _ => rfl⟩

/-- What `balanced.Layout` makes of the given chunks with the default options, or with raw leaves. -/
def wFile (raw : Bool) (chunks : List Bytes) : Node :=
  match Balanced.layout 5 { maxlinks := defaultLinksPerBlock, src := chunks, rawLeaves := raw, cidBuilder := if raw then some { version := 1, codec := 0x70, mhType := 0x12, mhLen := 32 } else none } with
  | .ok (r, _) => r.node
  | .error _ => .other []

/-- `[48, …, 57]` in two chunks, that is `"01234" "56789"`. -/
def wTen : Node := wFile false [[48, 49, 50, 51, 52], [53, 54, 55, 56, 57]]

instance {op : MOp} {r : MRes} : Decidable (Fine op r) :=
  decidable_of_iff ((r.err = none ∨ (r.err = some .eof ∧ (match op with | .read _ => true | _ => false) = true)) ∧ 0 ≤ r.n)
    (by unfold Fine; cases op <;> simp)

theorem wTen_ok : Fresh { maxlinks := defaultLinksPerBlock } none [[48, 49, 50, 51, 52], [53, 54, 55, 56, 57]] none none
    { maxlinks := defaultLinksPerBlock, src := [[48, 49, 50, 51, 52], [53, 54, 55, 56, 57]] } := ⟨_, rfl, rfl⟩

theorem wTen_made : ∃ r db', Balanced.layout 5 { maxlinks := defaultLinksPerBlock, src := [[48, 49, 50, 51, 52], [53, 54, 55, 56, 57]] } = .ok (r, db') ∧ r.node = wTen := by
  have h : ∀ x : Except Err (Built × DB), (match x with | .ok _ => true | .error _ => false) = true →
      ∃ r db', x = .ok (r, db') ∧ r.node = (match x with | .ok (r, _) => r.node | .error _ => .other []) := by
    intro x h
    cases x with
    | ok p => exact ⟨p.1, p.2, rfl, rfl⟩
    | error e => cases h
  exact h _ (by decide +kernel)

theorem wTen_all : SizesTrue wTen ∧ Ext wTen ∧ content wTen = some [48, 49, 50, 51, 52, 53, 54, 55, 56, 57] := by
  obtain ⟨r, db', e, h⟩ := wTen_made
  rw [← h]
  exact ⟨C08_balanced_sizes wTen_ok (by decide) e, C32_balanced wTen_ok (by decide) (by decide) (by decide) e, C06_balanced_content wTen_ok (by decide) e⟩

theorem wTen_sizes : SizesTrue wTen := wTen_all.1
theorem wTen_ext : Ext wTen := wTen_all.2.1
theorem wTen_content : content wTen = some [48, 49, 50, 51, 52, 53, 54, 55, 56, 57] := wTen_all.2.2

/-- Nothing outside the modifier fails. -/
theorem wEnv_quiet {r : MRes} (h : OutsideFailure wEnv r) : r.err = some .sizeLimitExceeded := by
  rcases h with ⟨_, t, x, h⟩ | ⟨_, ⟨t, h⟩ | ⟨t, h⟩⟩ | ⟨b, e, _, h⟩ | ⟨h, _⟩
  · cases h
  · cases h
  · exact absurd rfl h
  · cases h
  · exact h

/-- A careful history with all kinds of calls. -/
def wOps : List MOp := [.read 3, .seek 0 1, .write [88], .size, .sync, .seek 12 0, .writeAt [89] 12, .truncate 5]

theorem wOps_careful (more : List MOp) (h : ∀ op ∈ more, op = .size ∨ op = .getNode) {g : Prop} (hg : g) :
    CarefulRun g ⟨[48, 49, 50, 51, 52, 53, 54, 55, 56, 57], 0⟩ {} (wOps ++ more) := by
  have hm : ∀ (more : List MOp) (f : File) (t : Track), (∀ op ∈ more, op = .size ∨ op = .getNode) → CarefulRun g f t more := by
    intro more
    induction more with
    | nil => intros; trivial
    | cons o more ih =>
      intro f t h
      refine ⟨?_, ih _ _ fun op ho => h op (.tail _ ho)⟩
      rcases h o (.head _) with rfl | rfl <;> trivial
  refine ⟨?_, ⟨by decide, 3, by decide +kernel, by decide, .inl (by decide +kernel)⟩, ?_, trivial, trivial,
    ⟨by decide, 12, by decide +kernel, by decide, .inr ⟨hg, rfl⟩⟩, ⟨by decide +kernel, .inl (by decide +kernel), by decide +kernel, by decide +kernel, .inl hg⟩,
    ⟨by decide +kernel, .inl rfl, .inr hg⟩, hm _ _ _ h⟩
  · show 0 + 3 < 2 ^ 63; decide
  · exact ⟨by decide +kernel, by decide +kernel, .inl hg⟩

/-- A history of calls, not careful. -/
def wRough : List MOp := [.writeAt [88] 5, .writeAt [89] 1, .read 3, .write [88], .truncate 4, .read 8]

theorem wRough_nonneg : ∀ op ∈ wRough, NonNeg op := by
  intro op h
  simp only [wRough, List.mem_cons, List.not_mem_nil, or_false] at h
  rcases h with rfl | rfl | rfl | rfl | rfl | rfl <;> first | trivial | (show (0 : Int) ≤ _; decide)

/-! ### Histories -/

/-- Every history of careful calls returns what the same calls on an ordinary file return, up to the
first call that fails for a reason outside the modifier. -/
theorem C26_history_partial (hsp : SplitOK env) (hs : SizesTrue root) (hc : content root = some c) (hl : c.length < 2 ^ 63)
    (hr : CarefulRun (Ext root) ⟨c, 0⟩ {} ops) : ∃ e, FileRun (OutsideFailure env) ⟨c, 0⟩ ops (results env root ops) e := by
  obtain ⟨dm, e, h⟩ := new_sim hs hc hl
  obtain ⟨x, h, _⟩ := run_sim hsp _ h hr
  refine ⟨x, ?_⟩
  unfold results; rw [e]; exact h

example : ∃ e, FileRun (OutsideFailure wEnv) ⟨[48, 49, 50, 51, 52, 53, 54, 55, 56, 57], 0⟩ (wOps ++ [.getNode]) (results wEnv wTen (wOps ++ [.getNode])) e :=
  C26_history_partial wEnv_ok.1 wTen_sizes wTen_content (by decide) (wOps_careful _ (by simp) wTen_ext)

example : (results wEnv wTen (wOps ++ [.getNode])).map seen =
    [(3, [48, 49, 50], none, none), (3, [], none, none), (1, [], none, none), (10, [], none, none), (0, [], none, none), (12, [], none, none),
      (1, [], none, none), (0, [], none, none), (0, [], some [48, 49, 50, 88, 52], none)] := by decide +kernel

theorem _root_.Unixfs.Spec.FileRun.inv {fails : MRes → Prop} {f : File} {op : MOp} {rs : List MRes} {e : Option File} (h : FileRun fails f (op :: ops) rs e) :
    (∃ r ∈ rs, fails r) ∨ ∃ r rs' f', rs = r :: rs' ∧ FileStep f op r f' ∧ FileRun fails f' ops rs' e := by
  cases h with
  | cons h t => exact .inr ⟨_, _, _, rfl, h, t⟩
  | fail h => exact .inl ⟨_, by simp, h⟩

theorem _root_.Unixfs.Spec.FileRun.inv_nil {fails : MRes → Prop} {f : File} {rs : List MRes} {e : Option File} (h : FileRun fails f [] rs e) : rs = [] := by
  cases h; rfl

/-! ### C26 -/

/-- C26 for `Seek` and `Write` on a file that can be extended, or within its length. -/
theorem C26_seek_write_partial (hsp : SplitOK env) (hs : SizesTrue root) (hc : content root = some c) (hl : c.length < 2 ^ 63)
    (off : Int64) (b : Bytes) (h0 : 0 ≤ off.toInt) (hb : off.toInt + b.length < 2 ^ 63) (hg : Ext root ∨ off.toInt + b.length ≤ c.length) :
    (∃ n, results env root [.seek off 0, .write b, .sync, .getNode] = [{ n := off.toInt }, { n := b.length }, {}, { node := some n }] ∧
      content n = some (overlay c off.toInt.toNat b) ∧ SizesTrue n) ∨
    ∃ r ∈ results env root [.seek off 0, .write b, .sync, .getNode], OutsideFailure env r := by
  obtain ⟨o, ho⟩ : ∃ o : Nat, off.toInt = o := ⟨off.toInt.toNat, by omega⟩
  have ht : (⟨c, 0⟩ : File).target off 0 = some (o : Int) := by simp [File.target, ho]
  have hlen : (if c.length < o then resize c o else c).length = max c.length o := by
    split
    · simp [resize, zeros]; omega
    · omega
  obtain ⟨e, h⟩ := C26_history_partial (ops := [.seek off 0, .write b, .sync, .getNode]) hsp hs hc hl (by
    refine ⟨⟨by simp, o, ht, by omega, ?_⟩, ?_⟩
    · exact hg.elim (fun h => .inr ⟨h, rfl⟩) (fun h => .inl (by show o ≤ c.length; omega))
    · simp only [File.next, ht, Int.toNat_natCast]
      refine ⟨⟨rfl, by show o + _ < _; omega, hg.imp id (fun h => ?_)⟩, trivial, trivial, trivial⟩
      show o + _ ≤ List.length (if c.length < o then resize c o else c)
      omega)
  obtain h | ⟨r1, rs1, f1, e1, s1, h1⟩ := h.inv
  · exact .inr h
  rw [e1]
  cases s1 with
  | seek _ _ t htt =>
  rw [ht] at htt
  obtain rfl : o = t := by injection htt with h; omega
  obtain ⟨r, hr, h⟩ | ⟨r2, rs2, f2, rfl, s2, h2⟩ := h1.inv
  · exact .inr ⟨r, by simp [hr], h⟩
  cases s2
  obtain ⟨r, hr, h⟩ | ⟨r3, rs3, f3, rfl, s3, h3⟩ := h2.inv
  · exact .inr ⟨r, by simp [hr], h⟩
  cases s3
  obtain ⟨r, hr, h⟩ | ⟨r4, rs4, f4, rfl, s4, h4⟩ := h3.inv
  · exact .inr ⟨r, by simp [hr], h⟩
  obtain rfl := h4.inv_nil
  cases s4 with
  | getNode n hcn hsn =>
  refine .inl ⟨n, by rw [ho], ?_, hsn⟩
  rw [hcn, ho, Int.toNat_natCast]
  exact congrArg some (place_overlay c b o)

example : (results wEnv wTen [.seek 4 0, .write [88, 89], .sync, .getNode]).map seen = [(4, [], none, none), (2, [], none, none), (0, [], none, none), (0, [], some [48, 49, 50, 51, 88, 89, 54, 55, 56, 57], none)] ∧
    ((∃ n, (results wEnv wTen [.seek 4 0, .write [88, 89], .sync, .getNode]).getLast? = some { node := some n } ∧ SizesTrue n) ∨ ∃ r ∈ results wEnv wTen [.seek 4 0, .write [88, 89], .sync, .getNode], OutsideFailure wEnv r) := by
  refine ⟨by decide +kernel, ?_⟩
  rcases C26_seek_write_partial wEnv_ok.1 wTen_sizes wTen_content (by decide) 4 [88, 89] (by decide) (by decide) (.inl wTen_ext) with ⟨n, e, _, h⟩ | h
  · exact .inl ⟨n, by rw [e]; rfl, h⟩
  · exact .inr h

/-- C26 for `WriteAt` on a new modifier, likewise. -/
theorem C26_writeAt_partial (hsp : SplitOK env) (hs : SizesTrue root) (hc : content root = some c) (hl : c.length < 2 ^ 63)
    (off : Int64) (b : Bytes) (h0 : 0 ≤ off.toInt) (hb : off.toInt + b.length < 2 ^ 63) (hg : Ext root ∨ off.toInt + b.length ≤ c.length) :
    (∃ n, results env root [.writeAt b off, .sync, .getNode] = [{ n := b.length }, {}, { node := some n }] ∧
      content n = some (overlay c off.toInt.toNat b) ∧ SizesTrue n) ∨
    ∃ r ∈ results env root [.writeAt b off, .sync, .getNode], OutsideFailure env r := by
  obtain ⟨o, ho⟩ : ∃ o : Nat, off.toInt = o := ⟨off.toInt.toNat, by omega⟩
  obtain ⟨e, h⟩ := C26_history_partial (ops := [.writeAt b off, .sync, .getNode]) hsp hs hc hl (by
    refine ⟨⟨h0, ?_, by show 0 + _ < _; omega, by omega, hg.imp id (fun h => by show _ ≤ c.length; omega)⟩, trivial, trivial, trivial⟩
    by_cases hz : off.toInt = 0
    · exact .inl hz
    · exact .inr ⟨hz, .inl rfl⟩)
  obtain h | ⟨r1, rs1, f1, e1, s1, h1⟩ := h.inv
  · exact .inr h
  rw [e1]
  cases s1
  obtain ⟨r, hr, h⟩ | ⟨r2, rs2, f2, rfl, s2, h2⟩ := h1.inv
  · exact .inr ⟨r, by simp [hr], h⟩
  cases s2
  obtain ⟨r, hr, h⟩ | ⟨r4, rs4, f4, rfl, s4, h4⟩ := h2.inv
  · exact .inr ⟨r, by simp [hr], h⟩
  obtain rfl := h4.inv_nil
  cases s4 with
  | getNode n hcn hsn =>
  exact .inl ⟨n, rfl, hcn, hsn⟩

example : (results wEnv wTen [.writeAt [88, 89] 9, .sync, .getNode]).map seen = [(2, [], none, none), (0, [], none, none), (0, [], some [48, 49, 50, 51, 52, 53, 54, 55, 56, 88, 89], none)] ∧
    ((∃ n, (results wEnv wTen [.writeAt [88, 89] 9, .sync, .getNode]).getLast? = some { node := some n } ∧ SizesTrue n) ∨ ∃ r ∈ results wEnv wTen [.writeAt [88, 89] 9, .sync, .getNode], OutsideFailure wEnv r) := by
  refine ⟨by decide +kernel, ?_⟩
  rcases C26_writeAt_partial wEnv_ok.1 wTen_sizes wTen_content (by decide) 9 [88, 89] (by decide) (by decide) (.inl wTen_ext) with ⟨n, e, _, h⟩ | h
  · exact .inl ⟨n, by rw [e]; rfl, h⟩
  · exact .inr h

/-- C26 after any history, careful or not, of calls that reported no error: with a `Seek` first, a
`Write` goes where the `Seek` said. -/
theorem C26_any_history_partial (hsp : SplitOK env) (hs : SizesTrue root) (hc : content root = some c) (hg : Ext root)
    (off : Int64) (whence : Int) (b : Bytes) (hn : ∀ op ∈ ops, NonNeg op) (hB : c.length + (ops.map reachOf).sum + off.toInt.natAbs + b.length < 2 ^ 63)
    (hf : List.Forall₂ Fine (ops ++ [.getNode, .seek off whence, .write b, .getNode]) (results env root (ops ++ [.getNode, .seek off whence, .write b, .getNode]))) :
    ∃ rs n n' d, ∃ a : Nat, results env root (ops ++ [.getNode, .seek off whence, .write b, .getNode]) =
        rs ++ [{ node := some n }, { n := a }, { n := b.length }, { node := some n' }] ∧
      (whence = 0 → (a : Int) = off.toInt) ∧ content n = some d ∧ content n' = some (overlay d a b) ∧ SizesTrue n' := by
  obtain ⟨dm, e, h⟩ := W.new hs hc (by omega) hg
  simp only [results, e] at hf ⊢
  obtain ⟨h1, h2⟩ := fine_append env _ _ _ hf
  obtain ⟨n, n', d, a, e2, k⟩ := W.seek_write hsp (W.run hsp ops h hn (by omega) h1) off whence b (by omega) h2
  exact ⟨_, n, n', d, a, by rw [run_append, e2], k⟩

example : ∃ rs n n' d, ∃ a : Nat, results wEnv wTen (wRough ++ [.getNode, .seek 2 0, .write [7, 7, 7], .getNode]) =
      rs ++ [{ node := some n }, { n := a }, { n := 3 }, { node := some n' }] ∧ (a : Int) = 2 ∧ content n = some d ∧ content n' = some (overlay d a [7, 7, 7]) := by
  obtain ⟨rs, n, n', d, a, h1, h2, h3, h4, _⟩ := C26_any_history_partial (ops := wRough) wEnv_ok.1 wTen_sizes wTen_content wTen_ext 2 0 [7, 7, 7] wRough_nonneg (by decide +kernel) (by decide +kernel)
  exact ⟨rs, n, n', d, a, h1, h2 rfl, h3, h4⟩

/-! ### C27 -/

/-- C27, after any history of calls that reported no error, on a file that can be extended. -/
theorem C27_size_partial (hsp : SplitOK env) (hs : SizesTrue root) (hc : content root = some c) (hg : Ext root)
    (hn : ∀ op ∈ ops, NonNeg op) (hB : c.length + (ops.map reachOf).sum < 2 ^ 63)
    (hf : List.Forall₂ Fine (ops ++ [.size, .getNode]) (results env root (ops ++ [.size, .getNode]))) :
    ∃ rs n d, results env root (ops ++ [.size, .getNode]) = rs ++ [{ n := (d.length : Int) }, { node := some n }] ∧
      content n = some d ∧ SizesTrue n := by
  obtain ⟨dm, e, h⟩ := W.new hs hc (by omega) hg
  simp only [results, e] at hf ⊢
  obtain ⟨h1, h2⟩ := fine_append env _ _ _ hf
  obtain ⟨n, d, e2, k1, k2, _⟩ := W.size_node hsp (W.run hsp ops h hn (by omega) h1) h2
  exact ⟨_, n, d, by rw [run_append, e2], k1, k2⟩

example : ∃ rs n d, results wEnv wTen (wRough ++ [.size, .getNode]) = rs ++ [{ n := (d.length : Int) }, { node := some n }] ∧ content n = some d ∧ SizesTrue n :=
  C27_size_partial wEnv_ok.1 wTen_sizes wTen_content wTen_ext wRough_nonneg (by decide +kernel) (by decide +kernel)

example : (results wEnv wTen (wRough ++ [.size, .getNode])).map seen =
    [(1, [], none, none), (1, [], none, none), (3, [50, 51, 52], none, none), (1, [], none, none), (0, [], none, none), (0, [], none, some .eof),
      (4, [], none, none), (0, [], some [48, 49, 50, 51], none)] := by decide +kernel

/-- C27 after careful calls, on any file. -/
theorem C27_careful_partial (hsp : SplitOK env) (hs : SizesTrue root) (hc : content root = some c) (hl : c.length < 2 ^ 63)
    (hr : CarefulRun (Ext root) ⟨c, 0⟩ {} (ops ++ [.size, .getNode])) :
    (∃ rs n d, results env root (ops ++ [.size, .getNode]) = rs ++ [{ n := (d.length : Int) }, { node := some n }] ∧
      content n = some d ∧ SizesTrue n) ∨ ∃ r ∈ results env root (ops ++ [.size, .getNode]), OutsideFailure env r := by
  obtain ⟨e, h⟩ := C26_history_partial hsp hs hc hl hr
  clear hr
  generalize results env root (ops ++ [.size, .getNode]) = rs at h ⊢
  generalize (⟨c, 0⟩ : File) = f at h
  induction ops generalizing f rs with
  | nil =>
    obtain h | ⟨r1, rs1, f1, rfl, s1, h1⟩ := h.inv
    · exact .inr h
    cases s1
    obtain ⟨r, hr, h⟩ | ⟨r4, rs4, f4, rfl, s4, h4⟩ := h1.inv
    · exact .inr ⟨r, by simp [hr], h⟩
    obtain rfl := h4.inv_nil
    cases s4 with
    | getNode n hcn hsn => exact .inl ⟨[], n, _, rfl, hcn, hsn⟩
  | cons op ops ih =>
    obtain h | ⟨r1, rs1, f1, rfl, s1, h1⟩ := h.inv
    · exact .inr h
    rcases ih _ _ h1 with ⟨rs, n, d, rfl, k⟩ | ⟨r, hr, h⟩
    · exact .inl ⟨r1 :: rs, n, d, rfl, k⟩
    · exact .inr ⟨r, by simp [hr], h⟩

example : (∃ rs n d, results wEnv wTen (wOps ++ [.size, .getNode]) = rs ++ [{ n := (d.length : Int) }, { node := some n }] ∧ content n = some d ∧ SizesTrue n) ∨
    ∃ r ∈ results wEnv wTen (wOps ++ [.size, .getNode]), OutsideFailure wEnv r :=
  C27_careful_partial wEnv_ok.1 wTen_sizes wTen_content (by decide) (wOps_careful _ (by simp) wTen_ext)

/-! ### C28 -/

/-- C28 on a new modifier: for a shorter length always, for a longer one if the file can be extended. -/
theorem C28_truncate_partial (hsp : SplitOK env) (hs : SizesTrue root) (hc : content root = some c) (hl : c.length < 2 ^ 63)
    (s : Int64) (h0 : 0 ≤ s.toInt) (hg : s.toInt ≤ c.length ∨ Ext root) :
    (∃ n, results env root [.truncate s, .getNode] = [{}, { node := some n }] ∧
      content n = some (c.take s.toInt.toNat ++ zeros (s.toInt.toNat - c.length)) ∧ SizesTrue n) ∨
    ∃ r ∈ results env root [.truncate s, .getNode], OutsideFailure env r := by
  obtain ⟨e, h⟩ := C26_history_partial (ops := [.truncate s, .getNode]) hsp hs hc hl ⟨⟨h0, .inl rfl, hg⟩, trivial, trivial⟩
  obtain h | ⟨r1, rs1, f1, e1, s1, h1⟩ := h.inv
  · exact .inr h
  rw [e1]
  cases s1
  obtain ⟨r, hr, h⟩ | ⟨r4, rs4, f4, rfl, s4, h4⟩ := h1.inv
  · exact .inr ⟨r, by simp [hr], h⟩
  obtain rfl := h4.inv_nil
  cases s4 with
  | getNode n hcn hsn => exact .inl ⟨n, rfl, hcn, hsn⟩

example : (results wEnv wTen [.truncate 7, .getNode]).map seen = [(0, [], none, none), (0, [], some [48, 49, 50, 51, 52, 53, 54], none)] ∧
    ((∃ n, (results wEnv wTen [.truncate 7, .getNode]).getLast? = some { node := some n } ∧ SizesTrue n) ∨ ∃ r ∈ results wEnv wTen [.truncate 7, .getNode], OutsideFailure wEnv r) := by
  refine ⟨by decide +kernel, ?_⟩
  rcases C28_truncate_partial wEnv_ok.1 wTen_sizes wTen_content (by decide) 7 (by decide) (.inr wTen_ext) with ⟨n, e, _, h⟩ | h
  · exact .inl ⟨n, by rw [e]; rfl, h⟩
  · exact .inr h

example : (results wEnv wTen [.truncate 12, .getNode]).map seen = [(0, [], none, none), (0, [], some [48, 49, 50, 51, 52, 53, 54, 55, 56, 57, 0, 0], none)] ∧
    ((∃ n, (results wEnv wTen [.truncate 12, .getNode]).getLast? = some { node := some n } ∧ SizesTrue n) ∨ ∃ r ∈ results wEnv wTen [.truncate 12, .getNode], OutsideFailure wEnv r) := by
  refine ⟨by decide +kernel, ?_⟩
  rcases C28_truncate_partial wEnv_ok.1 wTen_sizes wTen_content (by decide) 12 (by decide) (.inr wTen_ext) with ⟨n, e, _, h⟩ | h
  · exact .inl ⟨n, by rw [e]; rfl, h⟩
  · exact .inr h

/-- C28 after any history of calls that reported no error, on a file that can be extended. -/
theorem C28_any_history_partial (hsp : SplitOK env) (hs : SizesTrue root) (hc : content root = some c) (hg : Ext root)
    (s : Int64) (h0 : 0 ≤ s.toInt) (hn : ∀ op ∈ ops, NonNeg op) (hB : c.length + (ops.map reachOf).sum + s.toInt.natAbs < 2 ^ 63)
    (hf : List.Forall₂ Fine (ops ++ [.getNode, .truncate s, .getNode]) (results env root (ops ++ [.getNode, .truncate s, .getNode]))) :
    ∃ rs n n' d, results env root (ops ++ [.getNode, .truncate s, .getNode]) = rs ++ [{ node := some n }, ({} : MRes), { node := some n' }] ∧
      content n = some d ∧ content n' = some (d.take s.toInt.toNat ++ zeros (s.toInt.toNat - d.length)) ∧ SizesTrue n' := by
  obtain ⟨dm, e, h⟩ := W.new hs hc (by omega) hg
  simp only [results, e] at hf ⊢
  obtain ⟨h1, h2⟩ := fine_append env _ _ _ hf
  obtain ⟨n, n', d, e2, k⟩ := W.truncate hsp (W.run hsp ops h hn (by omega) h1) s h0 (by omega) h2
  exact ⟨_, n, n', d, by rw [run_append, e2], k⟩

example : ∃ rs n n' d, results wEnv wTen (wRough ++ [.getNode, .truncate 6, .getNode]) = rs ++ [{ node := some n }, ({} : MRes), { node := some n' }] ∧
      content n = some d ∧ content n' = some (d.take 6 ++ zeros (6 - d.length)) ∧ SizesTrue n' :=
  C28_any_history_partial wEnv_ok.1 wTen_sizes wTen_content wTen_ext 6 (by decide) wRough_nonneg (by decide +kernel) (by decide +kernel)

/-! ### C29 -/

theorem overlay_past (c b : Bytes) (o : Nat) (h : c.length ≤ o) : overlay c o b = c ++ zeros (o - c.length) ++ b := by
  unfold overlay; rw [List.take_of_length_le h, List.drop_eq_nil_of_le (by omega)]; simp

/-- C29 for `Seek` and `Write`. -/
theorem C29_seek_write_partial (hsp : SplitOK env) (hs : SizesTrue root) (hc : content root = some c) (hl : c.length < 2 ^ 63)
    (off : Int64) (b : Bytes) (h0 : c.length ≤ off.toInt) (hb : off.toInt + b.length < 2 ^ 63) (hg : Ext root) :
    (∃ n, results env root [.seek off 0, .write b, .sync, .getNode] = [{ n := off.toInt }, { n := b.length }, {}, { node := some n }] ∧
      content n = some (c ++ zeros (off.toInt.toNat - c.length) ++ b) ∧ SizesTrue n) ∨
    ∃ r ∈ results env root [.seek off 0, .write b, .sync, .getNode], OutsideFailure env r := by
  have := C26_seek_write_partial hsp hs hc hl off b (by omega) hb (.inl hg)
  rwa [overlay_past _ _ _ (by omega)] at this

example : (results wEnv wTen [.seek 12 0, .write [88], .sync, .getNode]).map seen = [(12, [], none, none), (1, [], none, none), (0, [], none, none), (0, [], some [48, 49, 50, 51, 52, 53, 54, 55, 56, 57, 0, 0, 88], none)] ∧
    ((∃ n, (results wEnv wTen [.seek 12 0, .write [88], .sync, .getNode]).getLast? = some { node := some n } ∧ SizesTrue n) ∨ ∃ r ∈ results wEnv wTen [.seek 12 0, .write [88], .sync, .getNode], OutsideFailure wEnv r) := by
  refine ⟨by decide +kernel, ?_⟩
  rcases C29_seek_write_partial wEnv_ok.1 wTen_sizes wTen_content (by decide) 12 [88] (by decide) (by decide) wTen_ext with ⟨n, e, _, h⟩ | h
  · exact .inl ⟨n, by rw [e]; rfl, h⟩
  · exact .inr h

/-- C29 for `WriteAt`. -/
theorem C29_writeAt_partial (hsp : SplitOK env) (hs : SizesTrue root) (hc : content root = some c) (hl : c.length < 2 ^ 63)
    (off : Int64) (b : Bytes) (h0 : c.length ≤ off.toInt) (hb : off.toInt + b.length < 2 ^ 63) (hg : Ext root) :
    (∃ n, results env root [.writeAt b off, .sync, .getNode] = [{ n := b.length }, {}, { node := some n }] ∧
      content n = some (c ++ zeros (off.toInt.toNat - c.length) ++ b) ∧ SizesTrue n) ∨
    ∃ r ∈ results env root [.writeAt b off, .sync, .getNode], OutsideFailure env r := by
  have := C26_writeAt_partial hsp hs hc hl off b (by omega) hb (.inl hg)
  rwa [overlay_past _ _ _ (by omega)] at this

example : (results wEnv wTen [.writeAt [88] 12, .sync, .getNode]).map seen = [(1, [], none, none), (0, [], none, none), (0, [], some [48, 49, 50, 51, 52, 53, 54, 55, 56, 57, 0, 0, 88], none)] ∧
    ((∃ n, (results wEnv wTen [.writeAt [88] 12, .sync, .getNode]).getLast? = some { node := some n } ∧ SizesTrue n) ∨ ∃ r ∈ results wEnv wTen [.writeAt [88] 12, .sync, .getNode], OutsideFailure wEnv r) := by
  refine ⟨by decide +kernel, ?_⟩
  rcases C29_writeAt_partial wEnv_ok.1 wTen_sizes wTen_content (by decide) 12 [88] (by decide) (by decide) wTen_ext with ⟨n, e, _, h⟩ | h
  · exact .inl ⟨n, by rw [e]; rfl, h⟩
  · exact .inr h

/-! ### C30 -/

/-- The end of a history: `Sync` and `GetNode`. -/
theorem sync_getNode_run {fails : MRes → Prop} {f : File} {rs : List MRes} {e : Option File} (h : FileRun fails f [.sync, .getNode] rs e) :
    (∃ n, rs = [{}, { node := some n }] ∧ content n = some f.data ∧ SizesTrue n) ∨ ∃ r ∈ rs, fails r := by
  obtain h | ⟨r1, rs1, f1, rfl, s1, h1⟩ := h.inv
  · exact .inr h
  cases s1
  obtain ⟨r, hr, h⟩ | ⟨r4, rs4, f4, rfl, s4, h4⟩ := h1.inv
  · exact .inr ⟨r, by simp [hr], h⟩
  obtain rfl := h4.inv_nil
  cases s4 with
  | getNode n hcn hsn => exact .inl ⟨n, rfl, hcn, hsn⟩

/-- C30 for writes in ascending order that do not overlap. -/
theorem C30_ascending_partial (hsp : SplitOK env) (hs : SizesTrue root) (hc : content root = some c) (hl : c.length < 2 ^ 63)
    (ws : List (Bytes × Int64)) (ha : Ascending 0 ws) (hb : ∀ w ∈ ws, w.2.toInt + w.1.length < 2 ^ 63)
    (hg : Ext root ∨ ∀ w ∈ ws, w.2.toInt + w.1.length ≤ c.length) :
    (∃ n, results env root (ws.map (fun w => .writeAt w.1 w.2) ++ [.sync, .getNode]) = ws.map (fun w => { n := w.1.length }) ++ [({} : MRes), { node := some n }] ∧
      content n = some (applyWrites c ws) ∧ SizesTrue n) ∨
    ∃ r ∈ results env root (ws.map (fun w => .writeAt w.1 w.2) ++ [.sync, .getNode]), OutsideFailure env r := by
  have hcar : ∀ (ws : List (Bytes × Int64)) (f : File) (t : Track), f.pos ≤ t.wp → Ascending t.wp ws → (∀ w ∈ ws, w.2.toInt + w.1.length < 2 ^ 63) →
      (Ext root ∨ ∀ w ∈ ws, w.2.toInt + w.1.length ≤ f.data.length) →
      CarefulRun (Ext root) f t (ws.map (fun w => .writeAt w.1 w.2) ++ [.sync, .getNode]) := by
    intro ws
    induction ws with
    | nil => intro f t _ _ _ _; exact ⟨trivial, trivial, trivial⟩
    | cons w ws ih =>
      intro f t hp ha hb hg
      obtain ⟨b, off⟩ := w
      obtain ⟨ha1, ha2⟩ := ha
      have hb1 := hb _ (List.mem_cons_self)
      dsimp only at ha1 ha2 hb1
      simp only [List.map_cons, List.cons_append]
      refine ⟨⟨by omega, ?_, by omega, by omega, hg.imp id (fun h => ?_)⟩, ih _ _ ?_ ha2 (fun w hw => hb w (by simp [hw])) (hg.imp id (fun h w hw => ?_))⟩
      · by_cases he : off.toInt = t.wp
        · exact .inl he
        · exact .inr ⟨by omega, .inr (by omega)⟩
      · have := h _ (List.mem_cons_self); dsimp only at this; omega
      · show f.pos + b.length ≤ off.toInt.toNat + b.length; omega
      · have := h w (by simp [hw])
        show _ ≤ ((overlay f.data off.toInt.toNat b).length : Int)
        rw [overlay_length]; omega
  have hrun : ∀ (ws : List (Bytes × Int64)) (f : File) (rs : List MRes) (e : Option File),
      FileRun (OutsideFailure env) f (ws.map (fun w => .writeAt w.1 w.2) ++ [.sync, .getNode]) rs e →
      (∃ n, rs = ws.map (fun w => { n := w.1.length }) ++ [({} : MRes), { node := some n }] ∧ content n = some (applyWrites f.data ws) ∧ SizesTrue n) ∨
      ∃ r ∈ rs, OutsideFailure env r := by
    intro ws
    induction ws with
    | nil => intro f rs e h; exact sync_getNode_run h
    | cons w ws ih =>
      intro f rs e h
      obtain h | ⟨r1, rs1, f1, rfl, s1, h1⟩ := h.inv
      · exact .inr h
      cases s1
      rcases ih _ _ _ h1 with ⟨n, rfl, k⟩ | ⟨r, hr, h⟩
      · exact .inl ⟨n, rfl, k⟩
      · exact .inr ⟨r, by simp [hr], h⟩
  obtain ⟨e, h⟩ := C26_history_partial hsp hs hc hl (hcar ws ⟨c, 0⟩ {} (Nat.le_refl _) ha hb hg)
  exact hrun ws _ _ _ h

example : (∃ n, results wEnv wTen [.writeAt [88] 1, .writeAt [89, 90] 4, .sync, .getNode] = [{ n := 1 }, { n := 2 }, {}, { node := some n }] ∧
      content n = some [48, 88, 50, 51, 89, 90, 54, 55, 56, 57] ∧ SizesTrue n) ∨ ∃ r ∈ results wEnv wTen [.writeAt [88] 1, .writeAt [89, 90] 4, .sync, .getNode], OutsideFailure wEnv r :=
  C30_ascending_partial wEnv_ok.1 wTen_sizes wTen_content (by decide) [([88], 1), ([89, 90], 4)] ⟨by decide, by decide, trivial⟩ (by decide) (.inl wTen_ext)

/-- C30 for any writes, in any order and overlapping, each preceded by a `Seek` to its offset. -/
theorem C30_seek_first_partial (hsp : SplitOK env) (hs : SizesTrue root) (hc : content root = some c) (hl : c.length < 2 ^ 63)
    (ws : List (Bytes × Int64)) (h0 : ∀ w ∈ ws, 0 ≤ w.2.toInt) (hb : ∀ w ∈ ws, w.2.toInt + w.1.length < 2 ^ 63)
    (hg : Ext root ∨ ∀ w ∈ ws, w.2.toInt + w.1.length ≤ c.length) :
    (∃ n, results env root (ws.flatMap (fun w => [.seek w.2 0, .writeAt w.1 w.2]) ++ [.sync, .getNode]) =
        ws.flatMap (fun w => [{ n := w.2.toInt }, { n := w.1.length }]) ++ [({} : MRes), { node := some n }] ∧
      content n = some (applyWrites c ws) ∧ SizesTrue n) ∨
    ∃ r ∈ results env root (ws.flatMap (fun w => [.seek w.2 0, .writeAt w.1 w.2]) ++ [.sync, .getNode]), OutsideFailure env r := by
  have hnext : ∀ (f : File) (off : Int64), 0 ≤ off.toInt → f.next (.seek off 0) = ⟨if f.data.length < off.toInt.toNat then resize f.data off.toInt.toNat else f.data, off.toInt.toNat⟩ := by
    intro f off _; simp [File.next, File.target]
  have hlen : ∀ (c : Bytes) (o : Nat), c.length ≤ (if c.length < o then resize c o else c).length := by
    intro c o; split
    · simp [resize, zeros]; omega
    · omega
  have hcar : ∀ (ws : List (Bytes × Int64)) (f : File) (t : Track), (t.reader = false) → (∀ w ∈ ws, 0 ≤ w.2.toInt) → (∀ w ∈ ws, w.2.toInt + w.1.length < 2 ^ 63) →
      (Ext root ∨ ∀ w ∈ ws, w.2.toInt + w.1.length ≤ f.data.length) →
      CarefulRun (Ext root) f t (ws.flatMap (fun w => [.seek w.2 0, .writeAt w.1 w.2]) ++ [.sync, .getNode]) := by
    intro ws
    induction ws with
    | nil => intro f t _ _ _ _; exact ⟨trivial, trivial, trivial⟩
    | cons w ws ih =>
      intro f t ht h0 hb hg
      obtain ⟨b, off⟩ := w
      have hb1 := hb _ (List.mem_cons_self)
      have h01 := h0 _ (List.mem_cons_self)
      dsimp only at hb1 h01
      simp only [List.flatMap_cons, List.cons_append, List.nil_append]
      refine ⟨⟨by simp, off.toInt.toNat, by rw [Int.toNat_of_nonneg h01]; rfl, by omega, ?_⟩, ?_⟩
      · refine hg.elim (fun h => .inr ⟨h, ht⟩) (fun h => .inl ?_)
        have := h _ (List.mem_cons_self); dsimp only at this; omega
      rw [hnext f off h01]
      refine ⟨⟨h01, .inl ?_, by show off.toInt.toNat + _ < _; omega, by omega, hg.imp id (fun h => ?_)⟩, ih _ _ rfl (fun w hw => h0 w (by simp [hw])) (fun w hw => hb w (by simp [hw]))
        (hg.imp id (fun h w hw => ?_))⟩
      · show off.toInt = (off.toInt.toNat : Int); omega
      · have h1 := h _ (List.mem_cons_self); have h2 := hlen f.data off.toInt.toNat; dsimp only at h1 ⊢; omega
      · have h1 := h w (by simp [hw]); have h2 := hlen f.data off.toInt.toNat
        show _ ≤ ((overlay _ off.toInt.toNat b).length : Int)
        rw [overlay_length]; dsimp only; omega
  have hrun : ∀ (ws : List (Bytes × Int64)) (f : File) (rs : List MRes) (e : Option File), (∀ w ∈ ws, 0 ≤ w.2.toInt) →
      FileRun (OutsideFailure env) f (ws.flatMap (fun w => [.seek w.2 0, .writeAt w.1 w.2]) ++ [.sync, .getNode]) rs e →
      (∃ n, rs = ws.flatMap (fun w => [{ n := w.2.toInt }, { n := w.1.length }]) ++ [({} : MRes), { node := some n }] ∧ content n = some (applyWrites f.data ws) ∧ SizesTrue n) ∨
      ∃ r ∈ rs, OutsideFailure env r := by
    intro ws
    induction ws with
    | nil => intro f rs e _ h; exact sync_getNode_run h
    | cons w ws ih =>
      intro f rs e h0 h
      obtain ⟨b, off⟩ := w
      have h01 := h0 _ (List.mem_cons_self)
      dsimp only at h01
      obtain h | ⟨r1, rs1, f1, rfl, s1, h1⟩ := FileRun.inv (show FileRun _ f (.seek off 0 :: .writeAt b off :: (ws.flatMap _ ++ _)) rs e from h)
      · exact .inr h
      have hf1 := s1.next_eq
      rw [hnext f off h01] at hf1
      cases s1 with
      | seek _ _ t htt =>
      obtain ⟨r, hr, h⟩ | ⟨r2, rs2, f2, rfl, s2, h2⟩ := h1.inv
      · exact .inr ⟨r, by simp [hr], h⟩
      have hf2 := s2.next_eq
      cases s2
      rcases ih _ _ _ (fun w hw => h0 w (by simp [hw])) h2 with ⟨n, rfl, k1, k2⟩ | ⟨r, hr, h⟩
      · refine .inl ⟨n, ?_, ?_, k2⟩
        · have : (t : Int) = off.toInt := by simp [File.target] at htt; exact htt.symm
          simp [this]
        · rw [k1]
          simp only [applyWrites, List.foldl_cons]
          congr 2
          injection hf1 with h1 h2
          simp only [h1]
          exact place_overlay _ _ _
      · exact .inr ⟨r, by simp [hr], h⟩
  obtain ⟨e, h⟩ := C26_history_partial hsp hs hc hl (hcar ws ⟨c, 0⟩ {} rfl h0 hb hg)
  exact hrun ws _ _ _ h0 h

example : (∃ n, results wEnv wTen [.seek 5 0, .writeAt [88] 5, .seek 1 0, .writeAt [89] 1, .sync, .getNode] = [{ n := 5 }, { n := 1 }, { n := 1 }, { n := 1 }, {}, { node := some n }] ∧
      content n = some [48, 89, 50, 51, 52, 88, 54, 55, 56, 57] ∧ SizesTrue n) ∨
    ∃ r ∈ results wEnv wTen [.seek 5 0, .writeAt [88] 5, .seek 1 0, .writeAt [89] 1, .sync, .getNode], OutsideFailure wEnv r :=
  C30_seek_first_partial wEnv_ok.1 wTen_sizes wTen_content (by decide) [([88], 5), ([89], 1)] (by decide) (by decide) (.inl wTen_ext)

/-! ### C31 -/

/-- C31 with a `Seek(0, io.SeekCurrent)` between `Read` and `Write`. -/
theorem C31_seek_current_partial (hsp : SplitOK env) (hs : SizesTrue root) (hc : content root = some c) (hl : c.length < 2 ^ 63)
    (k : Nat) (b : Bytes) (hk : 0 < k) (hk2 : k + b.length < 2 ^ 63) (hg : Ext root ∨ k + b.length ≤ c.length) :
    (∃ n, results env root [.read k, .seek 0 1, .write b, .sync, .getNode] =
        [{ n := (c.take k).length, bytes := c.take k, err := if c.length < k then some .eof else none }, { n := (c.take k).length }, { n := b.length }, {}, { node := some n }] ∧
      content n = some (overlay c (c.take k).length b) ∧ SizesTrue n) ∨
    ∃ r ∈ results env root [.read k, .seek 0 1, .write b, .sync, .getNode], OutsideFailure env r := by
  have ht : ∀ f : File, f.target 0 1 = some (f.pos : Int) := by intro f; simp [File.target]
  have hlen : (c.take k).length ≤ c.length ∧ (c.take k).length ≤ k := by simp
  have hif : (if c.length < (c.take k).length then resize c (c.take k).length else c) = c := if_neg (by omega)
  obtain ⟨e, h⟩ := C26_history_partial (ops := [.read k, .seek 0 1, .write b, .sync, .getNode]) hsp hs hc hl (by
    refine ⟨by show 0 + k < _; omega, ⟨by simp, _, ht _, ?_⟩, ?_⟩
    · simp only [File.next, List.drop_zero, Nat.zero_add]
      exact ⟨by omega, .inl (by omega)⟩
    · simp only [File.next, ht, Int.toNat_natCast, List.drop_zero, Nat.zero_add, hif]
      exact ⟨⟨rfl, by show (c.take k).length + _ < _; omega, hg.imp id (fun h => by show (c.take k).length + _ ≤ c.length; omega)⟩, trivial, trivial, trivial⟩)
  obtain h | ⟨r1, rs1, f1, e1, s1, h1⟩ := h.inv
  · exact .inr h
  rw [e1]
  cases s1 with
  | read0 => omega
  | read _ =>
  simp only [List.drop_zero, Nat.zero_add] at h1 ⊢
  obtain ⟨r, hr, h⟩ | ⟨r2, rs2, f2, rfl, s2, h2⟩ := h1.inv
  · exact .inr ⟨r, by simp [hr], h⟩
  cases s2 with
  | seek _ _ t htt =>
  rw [ht] at htt
  obtain rfl : (c.take k).length = t := by injection htt with h; dsimp only at h; omega
  simp only [hif] at h2
  obtain ⟨r, hr, h⟩ | ⟨r3, rs3, f3, rfl, s3, h3⟩ := h2.inv
  · exact .inr ⟨r, by simp [hr], h⟩
  cases s3
  rcases sync_getNode_run h3 with ⟨n, rfl, k1, k2⟩ | ⟨r, hr, h⟩
  · exact .inl ⟨n, rfl, k1, k2⟩
  · exact .inr ⟨r, by simp [hr], h⟩

example : (results wEnv wTen [.read 3, .seek 0 1, .write [88], .sync, .getNode]).map seen = [(3, [48, 49, 50], none, none), (3, [], none, none), (1, [], none, none), (0, [], none, none), (0, [], some [48, 49, 50, 88, 52, 53, 54, 55, 56, 57], none)] ∧
    ((∃ n, (results wEnv wTen [.read 3, .seek 0 1, .write [88], .sync, .getNode]).getLast? = some { node := some n } ∧ SizesTrue n) ∨ ∃ r ∈ results wEnv wTen [.read 3, .seek 0 1, .write [88], .sync, .getNode], OutsideFailure wEnv r) := by
  refine ⟨by decide +kernel, ?_⟩
  rcases C31_seek_current_partial wEnv_ok.1 wTen_sizes wTen_content (by decide) 3 [88] (by decide) (by decide) (.inl wTen_ext) with ⟨n, e, _, h⟩ | h
  · exact .inl ⟨n, by rw [e]; rfl, h⟩
  · exact .inr h

/-! ### C32 -/

/-- C32 for files that can be extended. -/
theorem C32_append_partial (hsp : SplitOK env) (hs : SizesTrue root) (hc : content root = some c) (hg : Ext root)
    (b : Bytes) (hb : c.length + b.length < 2 ^ 63) :
    (∃ n, results env root [.seek 0 2, .write b, .sync, .getNode] = [{ n := c.length }, { n := b.length }, {}, { node := some n }] ∧
      content n = some (c ++ b) ∧ SizesTrue n) ∨
    ∃ r ∈ results env root [.seek 0 2, .write b, .sync, .getNode], OutsideFailure env r := by
  have ht : (⟨c, 0⟩ : File).target 0 2 = some (c.length : Int) := by simp [File.target]
  obtain ⟨e, h⟩ := C26_history_partial (ops := [.seek 0 2, .write b, .sync, .getNode]) hsp hs hc (by omega) (by
    refine ⟨⟨fun _ => rfl, c.length, ht, by omega, .inl (Nat.le_refl _)⟩, ?_⟩
    simp only [File.next, ht, Int.toNat_natCast]
    exact ⟨⟨rfl, by show c.length + _ < _; omega, .inl hg⟩, trivial, trivial, trivial⟩)
  obtain h | ⟨r1, rs1, f1, e1, s1, h1⟩ := h.inv
  · exact .inr h
  rw [e1]
  cases s1 with
  | seek _ _ t htt =>
  rw [ht] at htt
  obtain rfl : c.length = t := by injection htt with h; omega
  simp only [Nat.lt_irrefl, if_false] at h1
  obtain ⟨r, hr, h⟩ | ⟨r3, rs3, f3, rfl, s3, h3⟩ := h1.inv
  · exact .inr ⟨r, by simp [hr], h⟩
  cases s3
  rcases sync_getNode_run h3 with ⟨n, rfl, k1, k2⟩ | ⟨r, hr, h⟩
  · refine .inl ⟨n, rfl, ?_, k2⟩
    rw [k1]
    show some (overlay c c.length b) = _
    rw [overlay_past c b c.length (Nat.le_refl _)]; simp [zeros]
  · exact .inr ⟨r, by simp [hr], h⟩

example : (results wEnv wTen [.seek 0 2, .write [88, 89], .sync, .getNode]).map seen = [(10, [], none, none), (2, [], none, none), (0, [], none, none), (0, [], some [48, 49, 50, 51, 52, 53, 54, 55, 56, 57, 88, 89], none)] ∧
    ((∃ n, (results wEnv wTen [.seek 0 2, .write [88, 89], .sync, .getNode]).getLast? = some { node := some n } ∧ SizesTrue n) ∨ ∃ r ∈ results wEnv wTen [.seek 0 2, .write [88, 89], .sync, .getNode], OutsideFailure wEnv r) := by
  refine ⟨by decide +kernel, ?_⟩
  rcases C32_append_partial wEnv_ok.1 wTen_sizes wTen_content wTen_ext [88, 89] (by decide) with ⟨n, e, _, h⟩ | h
  · exact .inl ⟨n, by rw [e]; rfl, h⟩
  · exact .inr h

/-! ### C33 -/

theorem sync_clean {dm : DM} (h : dm.buf = none) : dm.sync env = (.ok (), dm) := by unfold DM.sync; rw [h]

/-- After a successful `Sync` nothing is pending. -/
theorem sync_buf {dm dm' : DM} {a : Unit} (h : dm.sync env = (.ok a, dm')) : dm'.buf = none := by
  have tail : ∀ (dm : DM) (k : Nat) (dm' : DM) (a : Unit), dm.syncTail env k = (.ok a, dm') → dm'.buf = none := by
    intro dm k dm' a h
    unfold DM.syncTail at h
    dsimp only at h
    split at h
    · cases h; rfl
    · split at h
      · cases h
      · split at h
        · cases h
        · cases h; rfl
  have modi : ∀ (dm : DM) (k : Nat) (dm' : DM) (a : Unit), dm.syncModify env k = (.ok a, dm') → dm'.buf = none := by
    intro dm k dm' a h
    unfold DM.syncModify at h
    split at h
    · cases h
    · split at h
      · cases h
      · exact tail _ _ _ _ h
  unfold DM.sync at h
  split at h
  · next hb => cases h; exact hb
  · dsimp only at h
    split at h
    · cases h
    · split at h
      · split at h
        · cases h
        · exact modi _ _ _ _ h
      · exact modi _ _ _ _ h

/-- What `GetNode` returned, and the modifier afterwards. -/
theorem getNode_inv {dm : DM} {n : Node} (h : (dm.step env .getNode).1 = { node := some n }) :
    (dm.step env .getNode).2.cur = n ∧ (dm.step env .getNode).2.buf = none := by
  simp only [DM.step, DM.getNode] at h ⊢
  cases hS : dm.sync env with
  | mk r dm' =>
    rw [hS] at h
    cases r with
    | error e => cases h
    | ok a =>
      simp only [MRes.mk.injEq, Option.some.injEq, true_and, and_true] at h
      exact ⟨h, sync_buf hS⟩

theorem results_append (a b : List MOp) {dm : DM} (e : newDagModifier root = .ok dm) :
    results env root (a ++ b) = results env root a ++ ((dm.run env a).2.run env b).1 ∧
    storedBy env root (a ++ b) = ((dm.run env a).2.run env b).2.svc.stored := by
  simp only [results, storedBy, e, run_append, and_self]

theorem new_cases (root : Node) : (∃ dm, newDagModifier root = .ok dm) ∨ ∃ e, newDagModifier root = .error e := by
  cases newDagModifier root with
  | ok dm => exact .inl ⟨dm, rfl⟩
  | error e => exact .inr ⟨e, rfl⟩

/-- C33: after any history on any file with any DAG service, `GetNode` following a `GetNode` that
returned a node returns that node again, and stores nothing. -/
theorem C33_getNode_twice (n : Node) (rs : List MRes) (h : results env root (ops ++ [.getNode]) = rs ++ [{ node := some n }]) :
    results env root (ops ++ [.getNode, .getNode]) = rs ++ [{ node := some n }, { node := some n }] ∧
    storedBy env root (ops ++ [.getNode, .getNode]) = storedBy env root (ops ++ [.getNode]) := by
  rcases new_cases root with ⟨dm, e⟩ | ⟨er, e⟩
  · rw [(results_append _ _ e).1] at h
    rw [(results_append _ _ e).1, (results_append _ _ e).2, (results_append _ _ e).2]
    obtain ⟨rfl, h'⟩ := List.append_inj' h (by simp [DM.run])
    clear h
    simp only [DM.run, List.cons.injEq, and_true] at h' ⊢
    obtain ⟨h1, h2⟩ := getNode_inv h'
    generalize (dm.run env ops).2.step env .getNode = S at h' h1 h2 ⊢
    have h3 : S.2.step env .getNode = ({ node := some n }, S.2) := by simp only [DM.step, DM.getNode, sync_clean h2, h1]
    rw [h3, h']; exact ⟨rfl, rfl⟩
  · simp [results, e] at h

example : ∃ n, results wEnv wTen [.writeAt [88] 5, .getNode, .getNode] = [{ n := 1 }, { node := some n }, { node := some n }] ∧
    storedBy wEnv wTen [.writeAt [88] 5, .getNode, .getNode] = storedBy wEnv wTen [.writeAt [88] 5, .getNode] := by
  obtain ⟨n, h⟩ : ∃ n, results wEnv wTen [.writeAt [88] 5, .getNode] = [{ n := 1 }, { node := some n }] := by
    have h : ∀ l : List MRes, (match l with | [{ n := 1, bytes := [], err := none, node := none }, { n := 0, bytes := [], err := none, node := some _ }] => true | _ => false) = true →
        ∃ n, l = [{ n := 1 }, { node := some n }] := by
      intro l h
      split at h
      · exact ⟨_, rfl⟩
      · cases h
    exact h _ (by decide +kernel)
  exact ⟨n, C33_getNode_twice (ops := [.writeAt [88] 5]) n [{ n := 1 }] h⟩

/-- C33: `Sync` with nothing pending changes nothing: after any history on any file with any DAG
service, when `HasChanges` says no, `Sync` returns nil and all later calls return what they would
have without it, and store the same. -/
theorem C33_sync_clean (rs : List MRes) (h : results env root (ops ++ [.hasChanges]) = rs ++ [{ n := 0 }]) (later : List MOp) :
    (∃ rs', results env root (ops ++ later) = rs ++ rs' ∧ results env root (ops ++ .sync :: later) = rs ++ ({} : MRes) :: rs') ∧
    storedBy env root (ops ++ .sync :: later) = storedBy env root (ops ++ later) := by
  rcases new_cases root with ⟨dm, e⟩ | ⟨er, e⟩
  · rw [(results_append _ _ e).1] at h
    simp only [(results_append _ _ e).1, (results_append _ _ e).2]
    obtain ⟨rfl, h'⟩ := List.append_inj' h (by simp [DM.run])
    have hb : (dm.run env ops).2.buf = none := by
      simp only [DM.run, DM.step, List.cons.injEq, and_true] at h'
      cases hb : (dm.run env ops).2.buf with
      | none => rfl
      | some b =>
        rw [show (dm.run env ops).2.hasChanges = true by unfold DM.hasChanges; rw [hb]; rfl] at h'
        simp at h'
    have h3 : (dm.run env ops).2.step env .sync = ({}, (dm.run env ops).2) := by simp only [DM.step, sync_clean hb, MRes.unit]
    exact ⟨⟨_, rfl, by rw [DM.run.eq_2, h3]⟩, by rw [DM.run.eq_2, h3]⟩
  · simp [results, e] at h

example : (∃ rs', results wEnv wTen [.writeAt [88] 5, .sync, .read 3] = ([{ n := 1 }, {}] : List MRes) ++ rs' ∧
      results wEnv wTen [.writeAt [88] 5, .sync, .sync, .read 3] = ([{ n := 1 }, {}] : List MRes) ++ ({} : MRes) :: rs') ∧
    storedBy wEnv wTen [.writeAt [88] 5, .sync, .sync, .read 3] = storedBy wEnv wTen [.writeAt [88] 5, .sync, .read 3] :=
  C33_sync_clean (env := wEnv) (root := wTen) (ops := [.writeAt [88] 5, .sync]) ([{ n := 1 }, {}] : List MRes) (by decide +kernel) [.read 3]

/-- C33: `Truncate` to the size just reported returns nil and changes nothing. -/
theorem C33_truncate_same (n : Node) (s : Int64) (rs : List MRes)
    (h : results env root (ops ++ [.getNode, .size]) = rs ++ [{ node := some n }, { n := s.toInt }]) (later : List MOp) :
    (∃ rs', results env root (ops ++ [.getNode, .size] ++ later) = rs ++ [{ node := some n }, { n := s.toInt }] ++ rs' ∧
      results env root (ops ++ [.getNode, .size] ++ .truncate s :: later) = rs ++ [{ node := some n }, { n := s.toInt }] ++ ({} : MRes) :: rs') ∧
    storedBy env root (ops ++ [.getNode, .size] ++ .truncate s :: later) = storedBy env root (ops ++ [.getNode, .size] ++ later) := by
  rcases new_cases root with ⟨dm, e⟩ | ⟨er, e⟩
  · have hh := h
    rw [(results_append _ _ e).1] at h
    simp only [(results_append (ops ++ [.getNode, .size]) _ e).1, (results_append (ops ++ [.getNode, .size]) _ e).2, hh]
    replace h := (List.append_inj' h (by simp [DM.run])).2
    simp only [DM.run, List.cons.injEq, and_true] at h
    obtain ⟨h1, h2⟩ := getNode_inv h.1
    have hst : (dm.run env (ops ++ [.getNode, .size])).2 = ((dm.run env ops).2.step env .getNode).2 := by
      rw [run_append]; rfl
    rw [hst]
    have h2' := h.2
    generalize ((dm.run env ops).2.step env .getNode).2 = d at h2 h2' ⊢
    have hsz : d.size = .ok s.toInt := by
      simp only [DM.step] at h2'
      cases hd : d.size with
      | ok a => rw [hd] at h2'; simp only [MRes.num, MRes.mk.injEq, and_self, and_true] at h2'; rw [h2']
      | error e => rw [hd] at h2'; simp [MRes.num] at h2'
    have h3 : d.step env (.truncate s) = ({}, d) := by
      simp only [DM.step, DM.truncate, sync_clean h2, hsz, if_true, MRes.unit]
    exact ⟨⟨_, rfl, by rw [DM.run.eq_2, h3]⟩, by rw [DM.run.eq_2, h3]⟩
  · simp [results, e] at h

example : ∃ n rs', results wEnv wTen [.getNode, .size, .truncate 10, .read 3] = [{ node := some n }, { n := 10 }] ++ ({} : MRes) :: rs' ∧
    storedBy wEnv wTen [.getNode, .size, .truncate 10, .read 3] = storedBy wEnv wTen [.getNode, .size, .read 3] := by
  obtain ⟨n, h⟩ : ∃ n, results wEnv wTen [.getNode, .size] = [{ node := some n }, { n := 10 }] := by
    have h : ∀ l : List MRes, (match l with | [{ n := 0, bytes := [], err := none, node := some _ }, { n := 10, bytes := [], err := none, node := none }] => true | _ => false) = true →
        ∃ n, l = [{ node := some n }, { n := 10 }] := by
      intro l h
      split at h
      · exact ⟨_, rfl⟩
      · cases h
    exact h _ (by decide +kernel)
  obtain ⟨⟨rs', _, h2⟩, h3⟩ := C33_truncate_same (ops := []) n 10 [] h [.read 3]
  exact ⟨n, rs', h2, h3⟩

/-! ### C62: storage -/

/-- C62: after any history of calls that reported no error, on a file that can be extended, every block
of the node `GetNode` returns was stored or belongs to the original file. -/
theorem C62_stored_partial (hsp : SplitOK env) (hs : SizesTrue root) (hc : content root = some c) (hg : Ext root)
    (hn : ∀ op ∈ ops, NonNeg op) (hB : c.length + (ops.map reachOf).sum < 2 ^ 63)
    (hf : List.Forall₂ Fine (ops ++ [.getNode]) (results env root (ops ++ [.getNode]))) :
    ∃ rs n, results env root (ops ++ [.getNode]) = rs ++ [{ node := some n }] ∧
      ∀ x, Reach n x → Reach root x ∨ x ∈ storedBy env root (ops ++ [.getNode]) := by
  obtain ⟨dm, e, h⟩ := W.new hs hc (by omega) hg
  simp only [results, storedBy, e] at hf ⊢
  obtain ⟨h1, h2⟩ := fine_append env _ _ _ hf
  simp only [DM.run] at h2
  rcases h2 with _ | ⟨h2, _⟩
  obtain ⟨n, e2, k⟩ := W.stored hsp (W.run hsp ops h hn (by omega) h1) h2
  exact ⟨(dm.run env ops).1, n, by rw [run_append]; simp only [DM.run, e2], by rw [run_append]; simpa only [DM.run] using k⟩

example : ∃ rs n, results wEnv wTen (wRough ++ [.getNode]) = rs ++ [{ node := some n }] ∧
      ∀ x, Reach n x → Reach wTen x ∨ x ∈ storedBy wEnv wTen (wRough ++ [.getNode]) :=
  C62_stored_partial wEnv_ok.1 wTen_sizes wTen_content wTen_ext wRough_nonneg (by decide +kernel) (by decide +kernel)

theorem _root_.Unixfs.Spec.FileRun.whole {fails : MRes → Prop} {f : File} {rs : List MRes} {e : Option File} (h : FileRun fails f ops rs e)
    (hn : ∀ r ∈ rs, ¬fails r) : ∃ x, e = some x := by
  induction h with
  | nil f => exact ⟨f, rfl⟩
  | cons h t ih => exact ih (fun r hr => hn r (by simp [hr]))
  | fail h => exact absurd h (hn _ (by simp))

/-- C62 after careful calls, on any file. -/
theorem C62_careful_partial (hsp : SplitOK env) (hs : SizesTrue root) (hc : content root = some c) (hl : c.length < 2 ^ 63)
    (hr : CarefulRun (Ext root) ⟨c, 0⟩ {} (ops ++ [.getNode])) (hn : ∀ r ∈ results env root (ops ++ [.getNode]), ¬OutsideFailure env r) :
    ∃ rs n, results env root (ops ++ [.getNode]) = rs ++ [{ node := some n }] ∧
      ∀ x, Reach n x → Reach root x ∨ x ∈ storedBy env root (ops ++ [.getNode]) := by
  obtain ⟨dm, e, h⟩ := new_sim hs hc hl
  obtain ⟨x, h, hS⟩ := run_sim hsp _ h hr
  simp only [results, storedBy, e] at hn ⊢
  obtain ⟨x', rfl⟩ := h.whole hn
  obtain ⟨t, f, hR, _⟩ := hS x' rfl
  have hst := hR.base.store
  have hcar : ∀ (ops : List MOp) (dm : DM) (f : File), FileRun (OutsideFailure env) f (ops ++ [.getNode]) (dm.run env (ops ++ [.getNode])).1 (some x') →
      ∃ rs n, (dm.run env (ops ++ [.getNode])).1 = rs ++ [{ node := some n }] ∧ (dm.run env (ops ++ [.getNode])).2.cur = n := by
    intro ops
    induction ops with
    | nil =>
      intro dm f h
      simp only [List.nil_append, DM.run] at h ⊢
      cases h with
      | cons h t =>
        generalize hr : (dm.step env .getNode).1 = r at h
        cases h with
        | getNode n hcn hsn => exact ⟨[], n, by rw [List.nil_append], (getNode_inv hr).1⟩
    | cons op ops ih =>
      intro dm f h
      simp only [List.cons_append, DM.run] at h ⊢
      cases h with
      | cons h t =>
        obtain ⟨rs, n, e1, e2⟩ := ih _ _ t
        exact ⟨_ :: rs, n, by rw [e1]; rfl, e2⟩
  obtain ⟨rs, n, e1, e2⟩ := hcar ops dm _ h
  rw [e2] at hst
  exact ⟨rs, n, e1, hst⟩

example : ∃ rs n, results wEnv wTen (wOps ++ [.getNode]) = rs ++ [{ node := some n }] ∧
      ∀ x, Reach n x → Reach wTen x ∨ x ∈ storedBy wEnv wTen (wOps ++ [.getNode]) := by
  refine C62_careful_partial wEnv_ok.1 wTen_sizes wTen_content (by decide) (wOps_careful _ (by simp) wTen_ext) fun r hr hx => ?_
  have h : ∀ r ∈ results wEnv wTen (wOps ++ [.getNode]), r.err ≠ some .sizeLimitExceeded := by decide +kernel
  exact h r hr (wEnv_quiet hx)

/-! ### C64, C65: `Seek`, and `Read` after `Truncate` -/

/-- C64: after any history of calls that reported no error, on a file that can be extended, a `Seek`
from the start that reports no error and a position returns the offset it was given. -/
theorem C64_seek_start_partial (hsp : SplitOK env) (hs : SizesTrue root) (hc : content root = some c) (hg : Ext root) (off : Int64)
    (hn : ∀ op ∈ ops, NonNeg op) (hB : c.length + (ops.map reachOf).sum + off.toInt.natAbs < 2 ^ 63)
    (hf : List.Forall₂ Fine (ops ++ [.seek off 0]) (results env root (ops ++ [.seek off 0]))) :
    ∃ rs, results env root (ops ++ [.seek off 0]) = rs ++ [{ n := off.toInt }] := by
  obtain ⟨dm, e, h⟩ := W.new hs hc (by omega) hg
  simp only [results, e] at hf ⊢
  obtain ⟨h1, h2⟩ := fine_append env _ _ _ hf
  simp only [DM.run] at h2
  rcases h2 with _ | ⟨h2, _⟩
  have e2 := W.seek_start hsp (W.run hsp ops h hn (by omega) h1) off (by omega) h2
  exact ⟨(dm.run env ops).1, by rw [run_append]; simp only [DM.run, e2]⟩

example : ∃ rs, results wEnv wTen (wRough ++ [.seek 9 0]) = rs ++ [{ n := 9 }] :=
  C64_seek_start_partial wEnv_ok.1 wTen_sizes wTen_content wTen_ext 9 wRough_nonneg (by decide +kernel) (by decide +kernel)

/-- C65 on a new modifier, that is, without an earlier `Read`. -/
theorem C65_truncate_read_partial (hsp : SplitOK env) (hs : SizesTrue root) (hc : content root = some c) (hl : c.length < 2 ^ 63)
    (s : Int64) (h0 : 0 ≤ s.toInt) (hg : s.toInt ≤ c.length ∨ Ext root) (k : Nat) (hk : 0 < k) (hk2 : k < 2 ^ 63) :
    results env root [.truncate s, .read k] = [{}, { n := ((resize c s.toInt.toNat).take k).length, bytes := (resize c s.toInt.toNat).take k, err := if s.toInt < k then some .eof else none }] ∨
    ∃ r ∈ results env root [.truncate s, .read k], OutsideFailure env r := by
  obtain ⟨e, h⟩ := C26_history_partial (ops := [.truncate s, .read k]) hsp hs hc hl ⟨⟨h0, .inl rfl, hg⟩, by show 0 + k < _; omega, trivial⟩
  obtain h | ⟨r1, rs1, f1, e1, s1, h1⟩ := h.inv
  · exact .inr h
  rw [e1]
  cases s1
  obtain ⟨r, hr, h⟩ | ⟨r4, rs4, f4, rfl, s4, h4⟩ := h1.inv
  · exact .inr ⟨r, by simp [hr], h⟩
  obtain rfl := h4.inv_nil
  cases s4 with
  | read0 => omega
  | read _ =>
    refine .inl ?_
    have hlen : (resize c s.toInt.toNat).length = s.toInt.toNat := by simp [resize, zeros]; omega
    simp only [List.drop_zero, Nat.zero_add, hlen]
    congr 3
    by_cases h : s.toInt < k
    · rw [if_pos h, if_pos (by omega)]
    · rw [if_neg h, if_neg (by omega)]

example : results wEnv wTen [.truncate 2, .read 8] = [{}, { n := 2, bytes := [48, 49], err := some .eof }] ∨
    ∃ r ∈ results wEnv wTen [.truncate 2, .read 8], OutsideFailure wEnv r :=
  C65_truncate_read_partial wEnv_ok.1 wTen_sizes wTen_content (by decide) 2 (by decide) (.inl (by decide)) 8 (by decide) (by decide)

/-! ### C63: a `Sync` that only failed to fetch -/

theorem writes_inside (hsp : SplitOK env) : ∀ (bs : List Bytes) {dm : DM} {x : File} {t : Track} {g : Prop}, Sim root g dm x t → Inside dm →
    CarefulRun g x t (bs.map .write) → (∀ r ∈ (dm.run env (bs.map .write)).1, ¬OutsideFailure env r) →
    (∃ t', Sim root g (dm.run env (bs.map .write)).2 ((bs.map MOp.write).foldl File.next x) t') ∧ Inside (dm.run env (bs.map .write)).2
  | [], dm, x, t, g, h, hi, _, _ => ⟨⟨t, h⟩, hi⟩
  | b :: bs, dm, x, t, g, h, hi, hc, hn => by
    simp only [List.map_cons, DM.run, List.mem_cons, forall_eq_or_imp] at hn ⊢
    obtain ⟨hc1, hc2⟩ := hc
    rcases step_sim hsp h _ hc1 with hf | ⟨x', hx, hS⟩
    · exact absurd hf hn.1
    · have hi' := write_inside hsp h hi b hc1 hn.1
      obtain rfl := hx.next_eq
      exact writes_inside hsp bs hS hi' hc2 hn.2

theorem run_whole (hsp : SplitOK env) : ∀ (ops : List MOp) {dm : DM} {x : File} {t : Track} {g : Prop}, Sim root g dm x t →
    ∀ (rest : List MOp), CarefulRun g x t (ops ++ rest) → (∀ r ∈ (dm.run env ops).1, ¬OutsideFailure env r) →
    ∃ t', Sim root g (dm.run env ops).2 (ops.foldl File.next x) t' ∧ CarefulRun g (ops.foldl File.next x) t' rest
  | [], dm, x, t, g, h, rest, hc, _ => ⟨t, h, hc⟩
  | op :: ops, dm, x, t, g, h, rest, hc, hn => by
    simp only [DM.run, List.mem_cons, forall_eq_or_imp] at hn ⊢
    obtain ⟨hc1, hc2⟩ := hc
    rcases step_sim hsp h _ hc1 with hf | ⟨x', hx, hS⟩
    · exact absurd hf hn.1
    · obtain rfl := hx.next_eq
      exact run_whole hsp ops hS rest hc2 hn.2

theorem retries {x : File} {t : Track} {g : Prop} : ∀ (k : Nat) {dm : DM}, Sim root g dm x t → Inside dm →
    (dm.run env (List.replicate k .sync)).1 = List.replicate k { err := some .notFound } →
    (∀ j ≤ k, (dm.run env (List.replicate j .sync)).2.svc.stored = dm.svc.stored) → Sim root g (dm.run env (List.replicate k .sync)).2 x t
  | 0, dm, h, _, _, _ => h
  | k + 1, dm, h, hi, he, hs => by
    simp only [List.replicate_succ, DM.run, List.cons.injEq] at he ⊢
    have h1 := hs 1 (by omega)
    simp only [List.replicate_succ, List.replicate_zero, DM.run] at h1
    obtain ⟨h2, h3⟩ := retry_sim h hi he.1 h1
    refine retries k h2 h3 he.2 (fun j hj => ?_)
    have := hs (j + 1) (by omega)
    simp only [List.replicate_succ, DM.run] at this
    rw [this, h1]

/-- C63 if the `Sync`s that failed have stored nothing: after careful calls, a `Seek` and `Write`s, any
number of `Sync`s that could not fetch a block and stored none, a `GetNode` that works delivers the
content all the calls ask for. (If a `Sync` has stored something before it failed, or failed to store,
this is false: see `C63_violated`, `C63_violated_put`.) -/
theorem C63_retry_partial (hsp : SplitOK env) (hs : SizesTrue root) (hc : content root = some c) (hl : c.length < 2 ^ 63)
    (pre : List MOp) (off : Int64) (whence : Int) (bs : List Bytes) (k : Nat) (hops : ops = pre ++ [.seek off whence] ++ bs.map .write)
    (hr : CarefulRun (Ext root) ⟨c, 0⟩ {} ops) (hn : ∀ r ∈ results env root ops, ¬OutsideFailure env r)
    (hk : results env root (ops ++ List.replicate k .sync) = results env root ops ++ List.replicate k { err := some .notFound })
    (hst : ∀ j ≤ k, storedBy env root (ops ++ List.replicate j .sync) = storedBy env root ops) :
    (∃ r ∈ results env root (ops ++ List.replicate k .sync ++ [.getNode]), OutsideFailure env r ∧
      results env root (ops ++ List.replicate k .sync ++ [.getNode]) = results env root (ops ++ List.replicate k .sync) ++ [r]) ∨
    ∃ n, results env root (ops ++ List.replicate k .sync ++ [.getNode]) = results env root (ops ++ List.replicate k .sync) ++ [{ node := some n }] ∧
      content n = some (ops.foldl File.next ⟨c, 0⟩).data := by
  obtain ⟨dm, e, h⟩ := new_sim hs hc hl
  simp only [results, storedBy, e] at hn hk hst ⊢
  have hends : ∃ t, Sim root (Ext root) (dm.run env ops).2 (ops.foldl File.next ⟨c, 0⟩) t ∧ Inside (dm.run env ops).2 := by
    subst hops
    rw [List.append_assoc] at hr
    rw [run_append, run_append] at hn ⊢
    obtain ⟨t, hS, hc2⟩ := run_whole hsp pre h _ hr (fun r hr => hn r (by simp [hr]))
    simp only [List.singleton_append] at hc2
    obtain ⟨hc1, hc2⟩ := hc2
    have hn1 := hn (((dm.run env pre).2.step env (.seek off whence)).1) (by simp [DM.run])
    rcases step_sim hsp hS _ hc1 with hf | ⟨x', hx, hS'⟩
    · exact absurd hf hn1
    · have hi := seek_inside hS' hx
      obtain rfl := hx.next_eq
      obtain ⟨⟨t', hS2⟩, hi2⟩ := writes_inside hsp bs hS' hi hc2 (fun r hr => hn r (by simp [DM.run, hr]))
      simp only [DM.run, List.foldl_append, List.foldl_cons, List.foldl_nil]
      exact ⟨t', hS2, hi2⟩
  obtain ⟨t, hS, hi⟩ := hends
  simp only [run_append env ops] at hk hst
  have hS2 := retries k hS hi (List.append_cancel_left hk) hst
  rw [run_append env (ops ++ _), run_append env ops]
  simp only [DM.run]
  rcases step_sim hsp hS2 .getNode trivial with hf | ⟨x', hx, _⟩
  · exact .inl ⟨_, by simp, hf, rfl⟩
  · generalize (((dm.run env ops).2.run env (List.replicate k .sync)).2.step env .getNode).1 = r at hx ⊢
    cases hx with
    | getNode n hcn _ => exact .inr ⟨n, rfl, hcn⟩

/-- The fetch of the first leaf fails twice. -/
def wEnvTwice : Env := { wEnv with get := fun t _ => t != 0 && t != 1 }

/-- Two `Sync`s fail. -/
example : (∃ r ∈ results wEnvTwice wTen ([.seek 3 0, .write [1, 2, 3, 4]] ++ List.replicate 2 .sync ++ [.getNode]), OutsideFailure wEnvTwice r ∧
      results wEnvTwice wTen ([.seek 3 0, .write [1, 2, 3, 4]] ++ List.replicate 2 .sync ++ [.getNode]) = results wEnvTwice wTen ([.seek 3 0, .write [1, 2, 3, 4]] ++ List.replicate 2 .sync) ++ [r]) ∨
    ∃ n, results wEnvTwice wTen ([.seek 3 0, .write [1, 2, 3, 4]] ++ List.replicate 2 .sync ++ [.getNode]) =
        results wEnvTwice wTen ([.seek 3 0, .write [1, 2, 3, 4]] ++ List.replicate 2 .sync) ++ [{ node := some n }] ∧
      content n = some [48, 49, 50, 1, 2, 3, 4, 55, 56, 57] := by
  refine C63_retry_partial (env := wEnvTwice) (ops := [.seek 3 0, .write [1, 2, 3, 4]]) wEnv_ok.1 wTen_sizes wTen_content (by decide) [] 3 0 [[1, 2, 3, 4]] 2 rfl ?_ ?_ ?_ ?_
  · exact ⟨⟨by decide, 3, by decide +kernel, by decide, .inl (by decide +kernel)⟩, ⟨by decide +kernel, by decide +kernel, .inr (by decide +kernel)⟩, trivial⟩
  · intro r hr hx
    have h : ∀ r ∈ results wEnvTwice wTen [.seek 3 0, .write [1, 2, 3, 4]], r.err = none := by decide +kernel
    have h := h r hr
    rcases hx with ⟨hx, _⟩ | ⟨hx, _⟩ | ⟨_, _, hx, _⟩ | ⟨hx, _⟩ <;> rw [h] at hx <;> cases hx
  · decide +kernel
  · intro j hj
    obtain rfl | rfl | rfl : j = 0 ∨ j = 1 ∨ j = 2 := by omega
    all_goals decide +kernel

example : (results wEnvTwice wTen ([.seek 3 0, .write [1, 2, 3, 4]] ++ List.replicate 2 .sync ++ [.getNode])).map seen =
      [(3, [], none, none), (4, [], none, none), (0, [], none, some .notFound), (0, [], none, some .notFound),
        (0, [], some [48, 49, 50, 1, 2, 3, 4, 55, 56, 57], none)] := by
  decide +kernel

/-! ### Counterexamples -/

/-- C26, C27, C29, C32 are false for a file of one chunk: writing beyond its end loses the content, and
`Size` is not the length of what is left. -/
theorem C26_violated : content (wFile false [[1, 2]]) = some [1, 2] ∧
    (results wEnv (wFile false [[1, 2]]) [.seek 2 0, .write [3], .size, .getNode]).map seen =
      [(2, [], none, none), (1, [], none, none), (3, [], none, none), (0, [], some [3], none)] := by
  decide +kernel

theorem C27_violated : (results wEnv (wFile false [[1, 2]]) [.write [1, 2, 3], .size, .getNode, .size]).map seen =
    [(3, [], none, none), (3, [], none, none), (0, [], some [3], none), (3, [], none, none)] := by
  decide +kernel

/-- C28 is false for a file of one chunk: extending it with `Truncate` loses the content. -/
theorem C28_violated : content (wFile false [[1, 2]]) = some [1, 2] ∧
    (results wEnv (wFile false [[1, 2]]) [.truncate 4, .size, .getNode]).map seen =
      [(0, [], none, none), (4, [], none, none), (0, [], some [0, 0], none)] := by
  decide +kernel

/-- C29, likewise, with a gap. -/
theorem C29_violated : (results wEnv (wFile false [[1, 2]]) [.writeAt [3] 4, .size, .getNode]).map seen =
    [(1, [], none, none), (5, [], none, none), (0, [], some [0, 0, 3], none)] := by
  decide +kernel

/-- C30 is false: a second `WriteAt` at the offset equal to the number of bytes written so far is
appended to the first. `X` at 5 and `Y` at 1 give `01234XY789`. -/
theorem C30_violated : content wTen = some [48, 49, 50, 51, 52, 53, 54, 55, 56, 57] ∧
    (results wEnv wTen [.writeAt [88] 5, .writeAt [89] 1, .getNode]).map seen =
      [(1, [], none, none), (1, [], none, none), (0, [], some [48, 49, 50, 51, 52, 88, 89, 55, 56, 57], none)] ∧
    applyWrites [48, 49, 50, 51, 52, 53, 54, 55, 56, 57] [([88], 5), ([89], 1)] = [48, 89, 50, 51, 52, 88, 54, 55, 56, 57] := by
  decide +kernel

/-- C30 is false: a shorter `WriteAt` at the offset of the pending one is appended to it. -/
theorem C30_violated_shorter : (results wEnv wTen [.writeAt [1, 2, 3] 0, .writeAt [88] 0, .getNode]).map seen =
      [(3, [], none, none), (1, [], none, none), (0, [], some [1, 2, 3, 88, 52, 53, 54, 55, 56, 57], none)] ∧
    applyWrites [48, 49, 50, 51, 52, 53, 54, 55, 56, 57] [([1, 2, 3], 0), ([88], 0)] = [88, 2, 3, 51, 52, 53, 54, 55, 56, 57] := by
  decide +kernel

/-- C31 is false: after reading three bytes, `Write` goes to offset 0. -/
theorem C31_violated : (results wEnv wTen [.read 3, .write [88], .getNode]).map seen =
    [(3, [48, 49, 50], none, none), (1, [], none, none), (0, [], some [88, 49, 50, 51, 52, 53, 54, 55, 56, 57], none)] := by
  decide +kernel

/-- C32 is false: appending to a file of one chunk loses the content; if the chunk is a raw node,
appending fails, and the modifier is unusable afterwards. -/
theorem C32_violated : content (wFile false [[1, 2]]) = some [1, 2] ∧ content (wFile true [[1, 2]]) = some [1, 2] ∧
    (results wEnv (wFile false [[1, 2]]) [.seek 0 2, .write [3], .getNode]).map seen =
      [(2, [], none, none), (1, [], none, none), (0, [], some [3], none)] ∧
    (results wEnv (wFile true [[1, 2]]) [.seek 0 2, .write [3], .getNode, .getNode]).map seen =
      [(2, [], none, none), (1, [], none, none), (0, [], none, some .notProtobuf), (0, [], none, some (.mod "ErrNotUnixfs"))] := by
  refine ⟨?_, ?_, ?_, ?_⟩ <;> decide +kernel

/-- C63 is false: the third request, the fetch of the second leaf, fails once. `Sync` reports that, and
the next `Sync` reports success; the first leaf gets the bytes meant for the second. -/
theorem C63_violated : (results { wEnv with get := fun t _ => t != 2 } wTen [.write [1, 2, 3, 4, 5, 6, 7], .sync, .sync, .getNode]).map seen =
    [(7, [], none, none), (0, [], none, some .notFound), (0, [], none, none), (0, [], some [6, 7, 3, 4, 5, 53, 54, 55, 56, 57], none)] := by
  decide +kernel

/-- C63 is false: the first request, storing the leaf, fails once; the next `Sync` reports success and
the bytes are gone. -/
theorem C63_violated_put : (results { wEnv with put := fun t => t != 0 } (wFile false [[1, 2]]) [.write [7], .sync, .sync, .getNode]).map seen =
    [(1, [], none, none), (0, [], none, some .addFailed), (0, [], none, none), (0, [], some [1, 2], none)] := by
  decide +kernel

/-- C64 is false: `Seek(3, io.SeekEnd)` goes to 7 in a file of 10 bytes, `Seek(-3, io.SeekEnd)` to 13,
`Seek(-1, io.SeekStart)` to -1, all without an error. -/
theorem C64_violated : (results wEnv wTen [.seek 3 2]).map seen = [(7, [], none, none)] ∧
    (results wEnv wTen [.seek (-3) 2]).map seen = [(13, [], none, none)] ∧ (results wEnv wTen [.seek (-1) 0]).map seen = [(-1, [], none, none)] := by
  refine ⟨?_, ?_, ?_⟩ <;> decide +kernel

/-- C65 is false: a reader goes on with the content before the `Truncate`. -/
theorem C65_violated : (results wEnv wTen [.read 1, .truncate 1, .size, .read 8]).map seen =
    [(1, [48], none, none), (0, [], none, none), (1, [], none, none), (8, [49, 50, 51, 52, 53, 54, 55, 56], none, none)] := by
  decide +kernel

end Unixfs.Props
