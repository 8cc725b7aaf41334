import Verif.Spec.FileForm
import Verif.Import.Fill
import Verif.Props.Bytes

/-!
# Imported trees have the published form (C112)

The definitions in this file belong to proofs; they model no code.
-/

namespace Unixfs.Import
open Unixfs Unixfs.Spec

/-! ### Folding a tree -/

mutual
def T.fold {α : Type} (leaf : Bytes → α) (inner : List α → α) : T → α
  | .leaf d => leaf d
  | .node ts => inner (T.foldL leaf inner ts)
def T.foldL {α : Type} (leaf : Bytes → α) (inner : List α → α) : List T → List α
  | [] => []
  | t :: ts => t.fold leaf inner :: T.foldL leaf inner ts
end

theorem T.foldL_map {α : Type} (leaf : Bytes → α) (inner : List α → α) : ∀ ts : List T, T.foldL leaf inner ts = ts.map (T.fold leaf inner)
  | [] => rfl
  | t :: ts => by rw [T.foldL, T.foldL_map leaf inner ts]; rfl

theorem T.fold_node {α : Type} (leaf : Bytes → α) (inner : List α → α) (ts : List T) : (T.node ts).fold leaf inner = inner (ts.map (T.fold leaf inner)) := by
  rw [T.fold, T.foldL_map]

/-! ### Rendering -/

theorem bytes_of_marshal {f : FSNode} {b : Bytes} (h : f.format.marshal = .ok b) : f.bytes = b := by
  unfold FSNode.bytes FSNode.getBytes
  rw [h]

theorem leaf_bytes (t : UInt8) (ht : t.toNat < 128) (d : Bytes) (h : d.length < 2 ^ 64) :
    ((FSNode.new (UInt32.ofNat t.toNat)).setData (some d)).bytes = [0x08, t] ++ str 0x12 d ++ num 0x18 d.length := by
  have hf : ((FSNode.new (UInt32.ofNat t.toNat)).setData (some d)).format =
      { typ := some (UInt32.ofNat t.toNat), data := some d, filesize := some (UInt64.ofNat d.length) } := by
    simp [FSNode.setData, FSNode.new, FSNode.updateFilesize, Pb.Data.getFilesize, FSNode.data, Pb.Data.getData]
  apply bytes_of_marshal
  rw [hf, Props.marshal_rendered _ (UInt32.ofNat t.toNat) rfl (by intro x hx; cases hx; exact h)]
  have e : (UInt32.ofNat t.toNat).toNat = t.toNat := by rw [UInt32.toNat_ofNat']; omega
  have e' : (UInt64.ofNat d.length).toNat = d.length := by rw [UInt64.toNat_ofNat']; omega
  simp only [Props.rendered, e, e', Option.elim_some, Option.elim_none, List.flatMap_nil, List.append_nil, List.nil_append]
  rw [if_pos (by omega), num, leb, if_pos ht]
  simp

theorem inner_bytes (ss : List UInt64) :
    (addSizes (FSNode.new TFile) ss).bytes = [0x08, 2] ++ num 0x18 ss.sum.toNat ++ ss.flatMap (fun s => num 0x20 s.toNat) := by
  have hf : (addSizes (FSNode.new TFile) ss).format = { typ := some TFile, filesize := some ss.sum, blocksizes := ss } := by
    rw [addSizes_format]
    by_cases h : ss = []
    · subst h; rfl
    · simp [h, FSNode.new, FSNode.updateFilesize, Pb.Data.getFilesize]
  apply bytes_of_marshal
  rw [hf, Props.marshal_rendered _ TFile rfl (by intro x hx; cases hx)]
  simp only [Props.rendered, Option.elim_some, Option.elim_none, List.append_nil, List.nil_append]
  rw [if_pos (by decide), show num 0x08 TFile.toNat = [0x08, 2] by decide +kernel]
  simp

theorem sum_toNat : ∀ ss : List UInt64, (ss.map UInt64.toNat).sum < 2 ^ 64 → ss.sum.toNat = (ss.map UInt64.toNat).sum
  | [], _ => rfl
  | s :: ss, h => by
    simp only [List.map_cons, List.sum_cons] at h ⊢
    rw [UInt64.toNat_add, sum_toNat ss (by omega)]
    omega

theorem T.chunksL_flatMap (ts : List T) : T.chunksL ts = ts.flatMap T.chunks := by
  induction ts with
  | nil => rfl
  | cons t ts ih => rw [T.chunksL, ih]; rfl

theorem flat_sum (ts : List T) : (T.chunksL ts).flatten.length = (ts.map (fun t => t.chunks.flatten.length)).sum := by
  induction ts with
  | nil => rfl
  | cons t ts ih => rw [T.chunksL, List.flatten_append, List.length_append, ih]; rfl

theorem mem_sum_le {α : Type} (f : α → Nat) {l : List α} {x : α} (h : x ∈ l) : f x ≤ (l.map f).sum := by
  induction l with
  | nil => cases h
  | cons y l ih =>
    rw [List.map_cons, List.sum_cons]
    rcases List.mem_cons.mp h with rfl | h
    · omega
    · have := ih h; omega

/-- The nodes of a tree are rendered as the format says. -/
theorem render (p : Params) (typ : UInt8) (ht : typ.toNat < 128) (n : Nat) : ∀ t : T, sizeOf t < n → t.chunks.flatten.length < 2 ^ 64 →
    t.fold (leafPart p typ) (innerPart p) = ⟨t.toNode ⟨p.rawLeaves, p.cidBuilder, UInt32.ofNat typ.toNat⟩, t.chunks.flatten.length⟩ := by
  have hpb : Cfg.pbBuilder ⟨p.rawLeaves, p.cidBuilder, UInt32.ofNat typ.toNat⟩ = protoBuilder p := by
    simp only [Cfg.pbBuilder, protoBuilder]
    cases p.cidBuilder <;> rfl
  induction n with
  | zero => intro t h; omega
  | succ n ih =>
    intro t hn hlen
    cases t with
    | leaf d =>
      have hd : d.length < 2 ^ 64 := by simpa [T.chunks] using hlen
      simp only [T.fold, leafPart, T.toNode, Cfg.leafNode, T.chunks, hpb]
      rw [leaf_bytes typ ht d hd]
      cases hr : p.rawLeaves
      · simp
      · simp only [rawBuilder, if_true]
        cases p.cidBuilder <;> simp [Builder.rawCodec]
    | node ts =>
      have hsum := flat_sum ts
      simp only [T.chunks] at hlen
      have hk : ∀ t ∈ ts, t.chunks.flatten.length < 2 ^ 64 := by
        intro t hm
        have := mem_sum_le (fun t : T => t.chunks.flatten.length) hm
        omega
      have e : ts.map (T.fold (leafPart p typ) (innerPart p)) =
          ts.map (fun t => (⟨t.toNode ⟨p.rawLeaves, p.cidBuilder, UInt32.ofNat typ.toNat⟩, t.chunks.flatten.length⟩ : Part)) := by
        apply List.map_congr_left
        intro t hm
        have := List.sizeOf_lt_of_mem hm
        exact ih t (by simp only [T.node.sizeOf_spec] at hn; omega) (hk t hm)
      have hs : ∀ t ∈ ts, t.size.toNat = t.chunks.flatten.length := by
        intro t hm
        rw [T.size, UInt64.toNat_ofNat']
        exact Nat.mod_eq_of_lt (hk t hm)
      have h1 : (ts.map T.size).map UInt64.toNat = ts.map (fun t => t.chunks.flatten.length) := by
        rw [List.map_map]; exact List.map_congr_left hs
      rw [T.fold_node, e, innerPart, T.toNode, inner_bytes, sum_toNat _ (by rw [h1, ← hsum]; exact hlen), h1, hpb, T.toLinks_eq_map]
      simp only [List.map_map, List.flatMap_map, T.chunks, hsum]
      have h2 : (ts.flatMap fun t => num 0x20 t.size.toNat) = ts.flatMap (fun t => num 0x20 t.chunks.flatten.length) := by
        rw [List.flatMap_def, List.flatMap_def]
        congr 1
        exact List.map_congr_left (fun t hm => by rw [hs t hm])
      rw [h2]
      rfl

/-! ### Groups -/

theorem groups_unique {α : Type} {m : Nat} {l : List α} {gs : List (List α)} (h : Groups m l gs) : ∀ {gs' : List (List α)}, Groups m l gs' → gs = gs' := by
  induction h with
  | last h hl =>
    intro gs' h'
    cases h' with
    | last _ _ => rfl
    | cons hg h1 _ =>
      exfalso
      rw [List.length_append] at hl
      have := List.length_pos_iff.mpr h1
      omega
  | @cons g l gs hg h hs ih =>
    intro gs' h'
    generalize he : g ++ l = l' at h'
    cases h' with
    | last h0 hl =>
      exfalso
      rw [← he, List.length_append] at hl
      have := List.length_pos_iff.mpr h
      omega
    | cons hg' h1 hs' =>
      obtain ⟨rfl, rfl⟩ := List.append_inj he (by rw [hg, hg'])
      rw [ih hs']

theorem balancedForm_unique {α : Type} {inner : List α → α} {m : Nat} {l : List α} {x : α} (h : BalancedForm inner m l x) :
    ∀ {y : α}, BalancedForm inner m l y → x = y := by
  induction h with
  | one x =>
    intro y h'
    cases h' with
    | one => rfl
    | level h _ _ => simp at h
  | level h hg hx ih =>
    intro y h'
    cases h' with
    | one => simp at h
    | level _ hg' hx' =>
      rw [← groups_unique hg hg'] at hx'
      exact ih hx'

theorem groups_map {α β : Type} (g : α → β) {m : Nat} {l : List α} {gs : List (List α)} (h : Groups m l gs) : Groups m (l.map g) (gs.map (List.map g)) := by
  induction h with
  | last h hl => exact .last (by simpa using h) (by simpa using hl)
  | cons hg h _ ih =>
    rw [List.map_append]
    exact .cons (by simpa using hg) (by simpa using h) ih

theorem balancedForm_map {α β : Type} {inner : List α → α} {inner' : List β → β} (g : α → β) (hg : ∀ l, g (inner l) = inner' (l.map g)) {m : Nat}
    {l : List α} {x : α} (h : BalancedForm inner m l x) : BalancedForm inner' m (l.map g) (g x) := by
  induction h with
  | one x => exact .one _
  | level h hgr _ ih =>
    refine .level (by simpa using h) (groups_map g hgr) ?_
    rw [List.map_map] at ih ⊢
    convert ih using 2
    funext l
    simp [hg]

/-- Cutting a list into groups of `m` and a rest. -/
theorem cut_groups {α : Type} {m : Nat} (hm : 0 < m) (n : Nat) : ∀ l : List α, l.length < n → ∃ (gs : List (List α)) (r : List α), l = gs.flatten ++ r ∧ (∀ g ∈ gs, g.length = m) ∧ r.length < m := by
  induction n with
  | zero => intro l h; omega
  | succ n ih =>
    intro l h
    by_cases hl : l.length < m
    · exact ⟨[], l, by simp, by simp, hl⟩
    · obtain ⟨gs, r, h1, h2, h3⟩ := ih (l.drop m) (by rw [List.length_drop]; omega)
      refine ⟨l.take m :: gs, r, ?_, ?_, h3⟩
      · rw [List.flatten_cons, List.append_assoc, ← h1, List.take_append_drop]
      · intro g hg
        rcases List.mem_cons.mp hg with rfl | hg
        · rw [List.length_take]; omega
        · exact h2 g hg

theorem length_groups {α : Type} {m : Nat} : ∀ gs : List (List α), (∀ g ∈ gs, g.length = m) → gs.flatten.length = gs.length * m
  | [], _ => by simp
  | g :: gs, h => by
    rw [List.flatten_cons, List.length_append, h g (by simp), length_groups gs (fun g hg => h g (by simp [hg])), List.length_cons, Nat.add_mul]
    omega

theorem chunksL_groups : ∀ gs : List (List T), T.chunksL (gs.map T.node) = T.chunksL gs.flatten
  | [] => rfl
  | g :: gs => by rw [List.map_cons, T.chunksL, chunksL_groups gs, List.flatten_cons, T.chunksL_append, T.chunks]

theorem groups_of {α : Type} {m : Nat} {g : List α} (hg : g ≠ []) (hl : g.length ≤ m) : ∀ gs : List (List α), (∀ g ∈ gs, g.length = m) → Groups m (gs.flatten ++ g) (gs ++ [g])
  | [], _ => .last hg hl
  | g' :: gs, h => by
    rw [List.flatten_cons, List.append_assoc]
    exact .cons (h g' (by simp)) (by simp [hg]) (groups_of hg hl gs (fun g hg => h g (by simp [hg])))

/-! ### Balanced -/

open Balanced in
theorem balancedForm_exists {m : Nat} (hm : 2 ≤ m) (n : Nat) : ∀ (d : Nat) (pre : List T) (last : T), pre.length < n → (∀ t ∈ pre, Full m d t) → Left m d last →
    (pre = [] → d ≠ 0 → m ^ (d - 1) < last.chunks.length) →
    ∃ d' x, BalancedForm T.node m (pre ++ [last]) x ∧ Left m d' x ∧ x.chunks = T.chunksL (pre ++ [last]) ∧ (d' ≠ 0 → m ^ (d' - 1) < x.chunks.length) := by
  induction n with
  | zero => intro d pre last h; omega
  | succ n ih =>
    intro d pre last hn hf hl hmin
    by_cases hpre : pre = []
    · subst hpre
      exact ⟨d, last, .one _, hl, by simp [T.chunksL], hmin rfl⟩
    · obtain ⟨gs, r, h1, h2, h3⟩ := cut_groups (m := m) (by omega) _ pre (Nat.lt_succ_self _)
      have hfr : ∀ t ∈ r, Full m d t := fun t ht => hf t (by rw [h1]; simp [ht])
      have hfg : ∀ g ∈ gs, ∀ t ∈ g, Full m d t := fun g hg t ht => hf t (by
        rw [h1]; exact List.mem_append_left _ (List.mem_flatten.mpr ⟨g, hg, ht⟩))
      have hlen : gs.length * m + r.length = pre.length := by
        rw [h1, List.length_append, length_groups gs h2]
      have hpos : 0 < pre.length := List.length_pos_iff.mpr hpre
      have hlt : gs.length < n := by
        by_cases h0 : gs.length = 0
        · omega
        · have : gs.length * 2 ≤ gs.length * m := Nat.mul_le_mul_left _ hm
          omega
      obtain ⟨d', x, e1, e2, e3, e4⟩ := ih (d + 1) (gs.map T.node) (.node (r ++ [last])) (by simpa using hlt)
        (by
          intro t ht
          obtain ⟨g, hg, rfl⟩ := List.mem_map.mp ht
          exact ⟨g, rfl, h2 g hg, hfg g hg⟩)
        ⟨r, last, rfl, h3, hfr, hl⟩
        (by
          intro h0 _
          have hgs : gs = [] := List.map_eq_nil_iff.mp h0
          have hr : pre = r := by rw [h1, hgs]; simp
          rw [← hr]
          obtain ⟨t0, rest, hp⟩ := List.exists_cons_of_ne_nil hpre
          have hc0 := Full.count (hf t0 (by rw [hp]; simp))
          have hc1 := (Left.count (by omega) hl).1
          simp only [Nat.add_sub_cancel, T.chunks, T.chunksL_append, hp, T.chunksL, List.length_append, List.append_nil]
          omega)
      refine ⟨d', x, ?_, e2, ?_, e4⟩
      · refine .level (by rw [List.length_append]; simp; omega) (gs := gs ++ [r ++ [last]]) ?_ ?_
        · rw [h1, List.append_assoc]
          exact groups_of (by simp) (by simp; omega) gs h2
        · rw [List.map_append]; exact e1
      · rw [e3, h1]
        simp only [T.chunksL_append, T.chunksL, List.append_nil, T.chunks]
        rw [← List.append_assoc, chunksL_groups]

open Balanced in
/-- A left-filled tree of least height is the balanced form of its leaves. -/
theorem left_balancedForm {m : Nat} (hm : 2 ≤ m) {d : Nat} {t : T} (h : Left m d t) (hd : d ≠ 0 → m ^ (d - 1) < t.chunks.length) :
    BalancedForm T.node m (t.chunks.map T.leaf) t := by
  have hc := Left.count (by omega) h
  have hne : t.chunks ≠ [] := List.length_pos_iff.mp hc.1
  obtain ⟨d', x, e1, e2, e3, e4⟩ := balancedForm_exists hm _ 0 (t.chunks.dropLast.map T.leaf) (.leaf (t.chunks.getLast hne)) (Nat.lt_succ_self _)
    (by intro t' ht; obtain ⟨c, _, rfl⟩ := List.mem_map.mp ht; exact ⟨c, rfl⟩) ⟨_, rfl⟩ (by simp)
  have hl : t.chunks.dropLast.map T.leaf ++ [.leaf (t.chunks.getLast hne)] = t.chunks.map T.leaf := by
    conv => rhs; rw [← List.dropLast_concat_getLast hne]
    simp
  rw [hl] at e1 e3
  have e3' : x.chunks = t.chunks := by
    rw [e3, T.chunksL_flatMap, List.flatMap_map]
    simp [T.chunks]
  have hc' := (Left.count (by omega) e2).2
  rw [e3'] at hc' e4
  have hdd := height_unique hm hc.2 hd hc' e4
  subst hdd
  have := (Left.same (by omega) e2 h (by rw [e3'])).ext e3'
  rw [← this]
  rw [this]
  rw [this] at e1
  exact e1

/-- Groups of folded trees are groups of trees. -/
theorem groups_lift {α β : Type} (g : β → α) {m : Nat} {l : List α} {gs : List (List α)} (h : Groups m l gs) :
    ∀ ts : List β, l = ts.map g → ∃ gts : List (List β), gs = gts.map (List.map g) ∧ gts.flatten = ts := by
  induction h with
  | last h hl =>
    intro ts e
    exact ⟨[ts], by simp [e], by simp⟩
  | @cons k l gs hg h hs ih =>
    intro ts e
    obtain ⟨a, b, rfl, rfl, rfl⟩ := List.append_eq_map_iff.mp e
    obtain ⟨gts, rfl, rfl⟩ := ih b rfl
    exact ⟨a :: gts, by simp, by simp⟩

/-- Whatever has the balanced form comes from a tree of the same chunks. -/
theorem tree_of_balancedForm {α : Type} {leaf : Bytes → α} {inner : List α → α} {m : Nat} {l : List α} {x : α} (h : BalancedForm inner m l x) :
    ∀ ts : List T, l = ts.map (T.fold leaf inner) → ∃ t : T, x = t.fold leaf inner ∧ t.chunks = T.chunksL ts := by
  induction h with
  | one x =>
    intro ts e
    match ts, e with
    | [t], e => exact ⟨t, by simpa using e, by simp [T.chunksL]⟩
  | level h hg hx ih =>
    intro ts e
    obtain ⟨gts, rfl, rfl⟩ := groups_lift _ hg ts e
    obtain ⟨t, h1, h2⟩ := ih (gts.map T.node) (by rw [List.map_map, List.map_map]; exact List.map_congr_left (fun g _ => (T.fold_node _ _ g).symm))
    exact ⟨t, h1, h2.trans (chunksL_groups gts)⟩

/-! ### Trickle -/

theorem trickleForm_map {α β : Type} {leaf : Bytes → α} {inner : List α → α} {leaf' : Bytes → β} {inner' : List β → β} (g : α → β) (hl : ∀ c, g (leaf c) = leaf' c)
    (hg : ∀ l, g (inner l) = inner' (l.map g)) {m : Nat} {layer : Option Nat} {full : Bool} {cs : List Bytes} {x : α}
    (h : TrickleForm leaf inner m layer full cs x) : TrickleForm leaf' inner' m layer full cs (g x) := by
  induction h with
  | mk kids hleaf hsub hlayer ih =>
    have e1 : kids.flatMap Prod.fst = (kids.map (fun k => (k.1, g k.2))).flatMap Prod.fst := by rw [List.flatMap_map]
    have e2 : g (inner (kids.map Prod.snd)) = inner' ((kids.map (fun k => (k.1, g k.2))).map Prod.snd) := by
      rw [hg, List.map_map, List.map_map]; rfl
    rw [e1, e2]
    refine .mk _ ?_ ?_ ?_
    · intro i k hk hi
      rw [List.getElem?_map, Option.map_eq_some_iff] at hk
      obtain ⟨k, hk, rfl⟩ := hk
      obtain ⟨c, rfl⟩ := hleaf i k hk hi
      exact ⟨c, by simp [hl]⟩
    · intro i k hk hi
      rw [List.getElem?_map, Option.map_eq_some_iff] at hk
      obtain ⟨k, hk, rfl⟩ := hk
      rw [List.length_map]
      exact ih i k hk hi
    · intro d hd
      have := hlayer d hd
      rw [List.length_map]
      exact ⟨by simpa using this.1, this.2⟩

namespace Trickle

/-- The form of a tree from its children. -/
theorem form_of_kids {m : Nat} {layer : Option Nat} {full : Bool} (ts : List T) (hleaf : ∀ i t, ts[i]? = some t → i < m → ∃ c, t = .leaf c)
    (hsub : ∀ i t, ts[i]? = some t → m ≤ i → TrickleForm T.leaf T.node m (some ((i - m) / 4 + 1)) (full || decide (i + 1 < ts.length)) t.chunks t)
    (hlayer : ∀ d, layer = some d → ts ≠ [] ∧ ts.length ≤ m + 4 * (d - 1) ∧ (full = true → ts.length = m + 4 * (d - 1))) :
    TrickleForm T.leaf T.node m layer full (T.chunksL ts) (.node ts) := by
  have h := TrickleForm.mk (leaf := T.leaf) (inner := T.node) (m := m) (layer := layer) (full := full) (ts.map (fun t => (t.chunks, t)))
    (by
      intro i k hk hi
      rw [List.getElem?_map, Option.map_eq_some_iff] at hk
      obtain ⟨t, hk, rfl⟩ := hk
      obtain ⟨c, rfl⟩ := hleaf i t hk hi
      exact ⟨c, rfl⟩)
    (by
      intro i k hk hi
      rw [List.getElem?_map, Option.map_eq_some_iff] at hk
      obtain ⟨t, hk, rfl⟩ := hk
      rw [List.length_map]
      exact hsub i t hk hi)
    (by
      intro d hd
      have := hlayer d hd
      rw [List.length_map]
      exact ⟨by simpa using this.1, this.2⟩)
  have e1 : (ts.map (fun t => (t.chunks, t))).flatMap Prod.fst = T.chunksL ts := by rw [T.chunksL_flatMap, List.flatMap_map]
  have e2 : (ts.map (fun t => (t.chunks, t))).map Prod.snd = ts := by rw [List.map_map]; exact (List.map_congr_left (fun _ _ => rfl)).trans (List.map_id _)
  rw [e1, e2] at h
  exact h

theorem kd_leaf {m i : Nat} (h : i < m) : kd m i = 0 := if_pos h
theorem kd_sub {m i : Nat} (h : m ≤ i) : kd m i = (i - m) / 4 + 1 := if_neg (by omega)

theorem tf_form {m : Nat} (hm : 0 < m) {D : Nat} {t : T} (h : TF m D t) : (D = 0 → ∃ c, t = .leaf c) ∧ (D ≠ 0 → TrickleForm T.leaf T.node m (some D) true t.chunks t) := by
  induction h with
  | leaf c => exact ⟨fun _ => ⟨c, rfl⟩, fun h => absurd rfl h⟩
  | node D ts hl h ih =>
    refine ⟨by omega, fun _ => ?_⟩
    refine form_of_kids ts (fun i t ht hi => (ih i t ht).1 (kd_leaf hi)) (fun i t ht hi => ?_) ?_
    · have := (ih i t ht).2 (by rw [kd_sub hi]; omega)
      rw [kd_sub hi] at this
      exact this
    · intro d hd
      cases hd
      simp only [depthRepeat] at hl
      refine ⟨?_, by simp; omega, fun _ => by simpa using hl⟩
      rintro rfl
      simp at hl; omega

theorem tg_form {m : Nat} (hm : 0 < m) {D : Nat} {t : T} (h : TG m D t) : (D = 0 → ∃ c, t = .leaf c) ∧ (D ≠ 0 → TrickleForm T.leaf T.node m (some D) false t.chunks t) := by
  induction h with
  | leaf c => exact ⟨fun _ => ⟨c, rfl⟩, fun h => absurd rfl h⟩
  | node D pre last hl h hlast ih =>
    refine ⟨by omega, fun _ => ?_⟩
    refine form_of_kids (pre ++ [last]) ?_ ?_ ?_
    · intro i t ht hi
      by_cases hp : i < pre.length
      · rw [List.getElem?_append_left hp] at ht
        exact (tf_form hm (h i t ht)).1 (kd_leaf hi)
      · have hil : i = pre.length := by
          have := (List.getElem?_eq_some_iff.mp ht).1
          simp at this; omega
        subst hil
        simp only [List.getElem?_concat_length, Option.some.injEq] at ht
        subst ht
        exact ih.1 (kd_leaf hi)
    · intro i t ht hi
      by_cases hp : i < pre.length
      · rw [List.getElem?_append_left hp] at ht
        have := (tf_form hm (h i t ht)).2 (by rw [kd_sub hi]; omega)
        rw [kd_sub hi] at this
        rw [decide_eq_true (by simp; omega)]
        exact this
      · have hil : i = pre.length := by
          have := (List.getElem?_eq_some_iff.mp ht).1
          simp at this; omega
        subst hil
        simp only [List.getElem?_concat_length, Option.some.injEq] at ht
        subst ht
        have := ih.2 (by rw [kd_sub hi]; omega)
        rw [kd_sub hi] at this
        rw [decide_eq_false (by simp)]
        exact this
    · intro d hd
      cases hd
      simp only [depthRepeat] at hl
      exact ⟨by simp, by simp; omega, by simp⟩

theorem lg_form {m : Nat} (hm : 0 < m) {ts : List T} {more : Prop} (h : LG m 0 ts more) : TrickleForm T.leaf T.node m none false (T.chunksL ts) (.node ts) := by
  by_cases hne : ts = []
  · subst hne
    exact form_of_kids [] (by simp) (by simp) (by simp)
  · obtain ⟨pre, last, rfl, h1, h2, _⟩ := h.last hne
    simp only [Nat.zero_add] at h1 h2
    refine form_of_kids (pre ++ [last]) ?_ ?_ (by simp)
    · intro i t ht hi
      by_cases hp : i < pre.length
      · rw [List.getElem?_append_left hp] at ht
        exact (tf_form hm (h1 i t ht)).1 (kd_leaf hi)
      · have hil : i = pre.length := by
          have := (List.getElem?_eq_some_iff.mp ht).1
          simp at this; omega
        subst hil
        simp only [List.getElem?_concat_length, Option.some.injEq] at ht
        subst ht
        exact (tg_form hm h2).1 (kd_leaf hi)
    · intro i t ht hi
      by_cases hp : i < pre.length
      · rw [List.getElem?_append_left hp] at ht
        have := (tf_form hm (h1 i t ht)).2 (by rw [kd_sub hi]; omega)
        rw [kd_sub hi] at this
        rw [decide_eq_true (by simp; omega)]
        exact this
      · have hil : i = pre.length := by
          have := (List.getElem?_eq_some_iff.mp ht).1
          simp at this; omega
        subst hil
        simp only [List.getElem?_concat_length, Option.some.injEq] at ht
        subst ht
        have := (tg_form hm h2).2 (by rw [kd_sub hi]; omega)
        rw [kd_sub hi] at this
        rw [decide_eq_false (by simp)]
        exact this

/-! The form determines the tree. -/

theorem choose_list {α β : Type} : ∀ (l : List α) (P : Nat → α → β → Prop), (∀ i k, l[i]? = some k → ∃ t, P i k t) →
    ∃ ts : List β, ts.length = l.length ∧ ∀ i k t, l[i]? = some k → ts[i]? = some t → P i k t
  | [], P, _ => ⟨[], rfl, by simp⟩
  | a :: l, P, h => by
    obtain ⟨t, ht⟩ := h 0 a rfl
    obtain ⟨ts, h1, h2⟩ := choose_list l (fun i => P (i + 1)) (fun i k hk => h (i + 1) k hk)
    refine ⟨t :: ts, by simp [h1], ?_⟩
    intro i k t' hk ht'
    cases i with
    | zero => cases hk; cases ht'; exact ht
    | succ i => exact h2 i k t' hk ht'

theorem lg_of {m : Nat} : ∀ (ts : List T) (i : Nat), (∀ j t, ts[j]? = some t → j + 1 < ts.length → TF m (kd m (i + j)) t) →
    (∀ j t, ts[j]? = some t → j + 1 = ts.length → TG m (kd m (i + j)) t) → LG m i ts False
  | [], _, _, _ => trivial
  | [t], i, _, h2 => ⟨h2 0 t rfl rfl, False.elim⟩
  | t :: t' :: ts, i, h1, h2 => by
    refine ⟨h1 0 t rfl (by simp), lg_of (t' :: ts) (i + 1) (fun j x hx hj => ?_) (fun j x hx hj => ?_)⟩
    · have := h1 (j + 1) x hx (by simpa using hj)
      rwa [show i + 1 + j = i + (j + 1) by omega]
    · have := h2 (j + 1) x hx (by simpa using hj)
      rwa [show i + 1 + j = i + (j + 1) by omega]

theorem tree_of_form {α : Type} {leaf : Bytes → α} {inner : List α → α} {m : Nat} {layer : Option Nat} {full : Bool} {cs : List Bytes} {x : α}
    (h : TrickleForm leaf inner m layer full cs x) : ∃ ts, x = (T.node ts).fold leaf inner ∧ T.chunksL ts = cs ∧
      (layer = none → full = false → LG m 0 ts False) ∧ ∀ D, layer = some (D + 1) → (full = true → TF m (D + 1) (.node ts)) ∧ (full = false → TG m (D + 1) (.node ts)) := by
  induction h with
  | @mk layer full kids hleaf hsub hlayer ih =>
    obtain ⟨ts, hlen, hts⟩ := choose_list kids (fun i (k : List Bytes × α) (t : T) => k.2 = t.fold leaf inner ∧ t.chunks = k.1 ∧
        ((full || decide (i + 1 < kids.length)) = true → TF m (kd m i) t) ∧ ((full || decide (i + 1 < kids.length)) = false → TG m (kd m i) t)) (by
      intro i k hk
      by_cases hi : i < m
      · obtain ⟨c, rfl⟩ := hleaf i k hk hi
        refine ⟨.leaf c, rfl, rfl, ?_, ?_⟩
        · intro _; rw [kd_leaf hi]; exact .leaf c
        · intro _; rw [kd_leaf hi]; exact .leaf c
      · obtain ⟨ts, h1, h2, _, h3⟩ := ih i k hk (by omega)
        have := h3 _ rfl
        rw [kd_sub (by omega)]
        exact ⟨.node ts, h1, h2, this⟩)
    have hget : ∀ (i : Nat) (t : T), ts[i]? = some t → ∃ k, kids[i]? = some k := by
      intro i t ht
      have := (List.getElem?_eq_some_iff.mp ht).1
      exact ⟨kids[i]'(by omega), List.getElem?_eq_getElem _⟩
    have e1 : kids.map Prod.snd = ts.map (T.fold leaf inner) := by
      apply List.ext_getElem?
      intro i
      rw [List.getElem?_map, List.getElem?_map]
      by_cases hi : i < ts.length
      · rw [List.getElem?_eq_getElem hi, List.getElem?_eq_getElem (by omega)]
        simp only [Option.map_some]
        exact congrArg some (hts i _ _ (List.getElem?_eq_getElem (by omega)) (List.getElem?_eq_getElem hi)).1
      · rw [List.getElem?_eq_none (by omega), List.getElem?_eq_none (by omega)]
        rfl
    have e2 : kids.map Prod.fst = ts.map T.chunks := by
      apply List.ext_getElem?
      intro i
      rw [List.getElem?_map, List.getElem?_map]
      by_cases hi : i < ts.length
      · rw [List.getElem?_eq_getElem hi, List.getElem?_eq_getElem (by omega)]
        simp only [Option.map_some]
        exact congrArg some (hts i _ _ (List.getElem?_eq_getElem (by omega)) (List.getElem?_eq_getElem hi)).2.1.symm
      · rw [List.getElem?_eq_none (by omega), List.getElem?_eq_none (by omega)]
        rfl
    have hF : ∀ i t, ts[i]? = some t → (full = true ∨ i + 1 < ts.length) → TF m (kd m i) t := by
      intro i t ht hc
      obtain ⟨k, hk⟩ := hget i t ht
      refine (hts i k t hk ht).2.2.1 ?_
      rcases hc with hc | hc
      · rw [hc]; rfl
      · rw [decide_eq_true (by omega), Bool.or_true]
    have hG : ∀ i t, ts[i]? = some t → full = false → i + 1 = ts.length → TG m (kd m i) t := by
      intro i t ht hf hc
      obtain ⟨k, hk⟩ := hget i t ht
      refine (hts i k t hk ht).2.2.2 ?_
      rw [hf, decide_eq_false (by omega)]; rfl
    refine ⟨ts, by rw [T.fold_node, e1], by rw [T.chunksL_flatMap, List.flatMap_def, List.flatMap_def, e2], ?_, ?_⟩
    · intro _ hf
      refine lg_of ts 0 (fun j t ht hj => by rw [Nat.zero_add]; exact hF j t ht (.inr hj)) (fun j t ht hj => ?_)
      rw [Nat.zero_add]
      exact hG j t ht hf hj
    · intro D hD
      obtain ⟨hne, hle, hfu⟩ := hlayer _ hD
      rw [← hlen] at hle hfu
      refine ⟨fun hf => .node D ts (by have := hfu hf; simpa [depthRepeat] using this) (fun i t ht => hF i t ht (.inl hf)), fun hf => ?_⟩
      have hne' : ts ≠ [] := by
        rintro rfl
        exact hne (List.eq_nil_of_length_eq_zero (by simpa using hlen.symm))
      have hts' := List.dropLast_concat_getLast hne'
      have hl' : ts.dropLast.length + 1 = ts.length := by
        have := List.length_pos_iff.mpr hne'
        simp; omega
      rw [← hts']
      refine .node D _ _ (by simp only [depthRepeat]; simp at hle; omega) ?_ ?_
      · intro i t ht
        have hi := (List.getElem?_eq_some_iff.mp ht).1
        refine hF i t ?_ (.inr (by omega))
        rw [← hts', List.getElem?_append_left hi]; exact ht
      · refine hG _ _ ?_ hf (by omega)
        conv => lhs; rw [← hts']
        simp

theorem trickleForm_unique {α : Type} {leaf : Bytes → α} {inner : List α → α} {m : Nat} {cs : List Bytes} {x y : α}
    (h : TrickleForm leaf inner m none false cs x) (h' : TrickleForm leaf inner m none false cs y) : x = y := by
  obtain ⟨ts, rfl, h1, h2, _⟩ := tree_of_form h
  obtain ⟨ts', rfl, h1', h2', _⟩ := tree_of_form h'
  rw [(LG.same (h2 rfl rfl) (h2' rfl rfl) (by rw [h1, h1'])).ext (by rw [h1, h1'])]

end Trickle

end Unixfs.Import
