import Verif.Hamt.Shard
import Verif.Hamt.TrieCanon
import Verif.Props.Format

/-!
# How a `Shard` represents a trie

`RepS size A s t`: the shard `s` represents the trie `t`, whatever mixture of loaded and unloaded
children it has; unloaded sub-shards are in the set `A` of available nodes.

The definitions in this file belong to proofs; they model no code.
-/

namespace Unixfs.Hamt

/-- The widths that `makeShard` accepts. -/
def ValidSize (size : Nat) : Prop := ∃ k, 3 ≤ k ∧ k ≤ 10 ∧ size = 2 ^ k

def bfOf (size : Nat) (l : List Nat) : Bytes := l.foldl bfSet (bfNew size)

/-- The payload of a shard with children at these indices. -/
def shardData (size : Nat) (l : List Nat) : Bytes :=
  mustMarshal { typ := some THAMTShard, hashType := some HashMurmur3, data := bfBytes (bfOf size l), fanout := some (UInt64.ofNat size) }

def Trie.tkey : Trie → Bytes | .leaf k _ => k | .node .. => []
def Trie.tsz : Trie → Node → UInt64 | .leaf _ v, _ => v.1 | .node .., n => n.size

mutual
/-- The node a trie serialises to (for a leaf, the node it points to). -/
def Trie.toN (size : Nat) : Trie → Node
  | .leaf _ v => v.2
  | .node b cs => .proto (shardData size (idxs cs)) (kidLinks size cs) b
def kidLinks (size : Nat) : List Kid → List Link
  | [] => []
  | .mk i t :: cs => .mk (linkNamePrefix size i ++ t.tkey) (t.tsz (t.toN size)) (t.toN size) :: kidLinks size cs
end

mutual
/-- All shard nodes of a serialised trie. -/
def Trie.subs (size : Nat) : Trie → List Node
  | .leaf .. => []
  | .node b cs => .proto (shardData size (idxs cs)) (kidLinks size cs) b :: subsL size cs
def subsL (size : Nat) : List Kid → List Node
  | [] => []
  | .mk _ t :: cs => t.subs size ++ subsL size cs
end

/-- An available shard node, with a builder for protobuf nodes. -/
def GoodSub (A : Node → Prop) (x : Node) : Prop := A x ∧ ∃ d ls b, x = .proto d ls b ∧ b.withCodec 0x70 = b

/-- An unloaded link represents a trie. Its index digits do not matter. -/
def RepLink (size : Nat) (A : Node → Prop) (l : Link) (t : Trie) : Prop :=
  (∃ p, p.length = maxpadlen size ∧ l = .mk (p ++ t.tkey) (t.tsz (t.toN size)) (t.toN size)) ∧ ∀ x ∈ t.subs size, GoodSub A x

/-- Names of the links in value nodes: usually the index digits and the key; `ForEachLink` leaves the
key only. -/
structure NameOk (size : Nat) (k nm : Bytes) : Prop where
  lo : k.length ≤ nm.length
  hi : nm.length ≤ maxpadlen size + k.length

mutual
def RepS (size : Nat) (A : Node → Prop) : Shard → Trie → Prop
  | s, .leaf k v => s.key = k ∧ ∃ nm, NameOk size k nm ∧ s.val = some (.mk nm v.1 v.2)
  | s, .node b cs => s.size = size ∧ s.key = [] ∧ s.val = none ∧ pbBuilder s.builder = b ∧ IsBf size s.bf (idxs cs) ∧ RepL size A s.slots cs
def RepL (size : Nat) (A : Node → Prop) : List Slot → List Kid → Prop
  | [], [] => True
  | .child s :: ss, .mk _ t :: cs => RepS size A s t ∧ RepL size A ss cs
  | .link l :: ss, .mk _ t :: cs => RepLink size A l t ∧ RepL size A ss cs
  | _, _ => False
end

/-- One slot represents one child. -/
def RepSl (size : Nat) (A : Node → Prop) : Slot → Kid → Prop
  | .child s, c => RepS size A s c.trie
  | .link l, c => RepLink size A l c.trie

variable {size : Nat} {A : Node → Prop}

theorem repL_iff : ∀ (ss : List Slot) (cs : List Kid), RepL size A ss cs ↔ List.Forall₂ (RepSl size A) ss cs
  | [], [] => by simp [RepL]
  | [], c :: cs => by cases c; simp [RepL]
  | s :: ss, [] => by cases s <;> simp [RepL]
  | .child s :: ss, .mk i t :: cs => by simp [RepL, RepSl, repL_iff ss cs]
  | .link l :: ss, .mk i t :: cs => by simp [RepL, RepSl, repL_iff ss cs]

/-! ### Widths -/

theorem validSize_cases (h : ValidSize size) : size ∈ [8, 16, 32, 64, 128, 256, 512, 1024] := by
  obtain ⟨k, h1, h2, rfl⟩ := h
  have : k = 3 ∨ k = 4 ∨ k = 5 ∨ k = 6 ∨ k = 7 ∨ k = 8 ∨ k = 9 ∨ k = 10 := by omega
  rcases this with rfl | rfl | rfl | rfl | rfl | rfl | rfl | rfl <;> decide

theorem prefix_all : ∀ s ∈ [8, 16, 32, 64, 128, 256, 512, 1024], ∀ i < s, (linkNamePrefix s i).length = maxpadlen s := by
  decide +kernel

theorem prefix_length (h : ValidSize size) {i : Nat} (hi : i < size) : (linkNamePrefix size i).length = maxpadlen size :=
  prefix_all size (validSize_cases h) i hi

theorem makeShard_valid (h : ValidSize size) (key : Bytes) (val : Option Link) :
    makeShard size key val = .ok (.mk size (bfNew size) [] none key val) := by
  have h1 := validSize_cases h
  have : ∀ s ∈ [8, 16, 32, 64, 128, 256, 512, 1024], (logtwo (s : Nat)).isOk = true ∧ ¬ ((s : Nat) : Int) > maximumHamtWidth ∧ ¬ ((s : Nat) : Int) % 8 ≠ 0 := by
    decide +kernel
  obtain ⟨a1, a2, a3⟩ := this size h1
  rw [makeShard]
  cases hl : logtwo (size : Int) with
  | error e => rw [hl] at a1; cases a1
  | ok v =>
    dsimp only
    rw [if_neg a2, if_neg a3]
    simp

theorem lg_valid {k : Nat} (h : k ≤ 10) : trailingZeros 64 (2 ^ k) = k := trailingZeros_pow 64 k (by omega)

theorem valid_dvd (h : ValidSize size) : 8 ∣ size := by
  have h1 := validSize_cases h
  have : ∀ s ∈ [8, 16, 32, 64, 128, 256, 512, 1024], 8 ∣ s := by decide
  exact this size h1

theorem valid_le (h : ValidSize size) : size ≤ 1024 ∧ 8 ≤ size := by
  have h1 := validSize_cases h
  have : ∀ s ∈ [8, 16, 32, 64, 128, 256, 512, 1024], s ≤ 1024 ∧ 8 ≤ s := by decide
  exact this size h1

theorem isBf_of (h : 8 ∣ size) : ∀ (l l' : List Nat) (bf : Bytes), IsBf size bf l' → (∀ i ∈ l, i < size) → IsBf size (l.foldl bfSet bf) (l ++ l') := by
  intro l
  induction l with
  | nil => intro l' bf h1 _; exact h1
  | cons a l ih =>
    intro l' bf h1 h2
    have := ih (a :: l') (bfSet bf a) (isBf_set h1 (h2 a (by simp)) (by simp)) (fun i hi => h2 i (by simp [hi]))
    rw [List.foldl_cons]
    exact ⟨this.len, fun i hi => by rw [this.bit i hi]; simp [or_left_comm]⟩

theorem isBf_bfOf (h : 8 ∣ size) {l : List Nat} (hl : ∀ i ∈ l, i < size) : IsBf size (bfOf size l) l := by
  have := isBf_of h l [] (bfNew size) (isBf_new h) hl
  rw [List.append_nil] at this; exact this

theorem bf_eq (h : 8 ∣ size) {l : List Nat} {bf : Bytes} (hl : ∀ i ∈ l, i < size) (hb : IsBf size bf l) : bf = bfOf size l :=
  isBf_ext hb (isBf_bfOf h hl) (by simp)

/-! ### Serialised data -/

theorem bfBytes_length : ∀ bf : Bytes, ((bfBytes bf).getD []).length ≤ bf.length := by
  intro bf
  obtain ⟨k, hk⟩ := bfBytes_getD bf
  conv => rhs; rw [hk]
  simp


theorem shardData_unmarshal (h : ValidSize size) (l : List Nat) (hl : ∀ i ∈ l, i < size) :
    Pb.Data.unmarshal (shardData size l) =
      .ok { typ := some THAMTShard, hashType := some HashMurmur3, data := bfBytes (bfOf size l), fanout := some (UInt64.ofNat size) } := by
  apply mustMarshal_spec
  refine ⟨rfl, ?_, .nil⟩
  intro d hd
  have h1 := bfBytes_length (bfOf size l)
  have h2 := (isBf_bfOf (valid_dvd h) hl).len
  have h3 := (valid_le h).1
  simp only at hd
  rw [hd] at h1
  simp only [Option.getD_some] at h1
  omega

theorem hamtShardData_eq (h : ValidSize size) {l : List Nat} (hl : ∀ i ∈ l, i < size) {bf : Bytes} (hb : IsBf size bf l) :
    hamtShardData (bfBytes bf) (UInt64.ofNat size) HashMurmur3 = .ok (shardData size l) := by
  rw [hamtShardData, bf_eq (valid_dvd h) hl hb]
  exact mustMarshal_ok _ rfl

theorem u64ToInt_size (h : ValidSize size) : u64ToInt (UInt64.ofNat size) = (size : Int) := by
  have : ∀ s ∈ [8, 16, 32, 64, 128, 256, 512, 1024], u64ToInt (UInt64.ofNat s) = (s : Int) := by decide
  exact this size (validSize_cases h)

theorem load_core {d : Bytes} {ls : List Link} {b : Builder} {m : Pb.Data} {s : Shard} (h1 : Pb.Data.unmarshal d = .ok m)
    (h2 : m.getType = THAMTShard) (h3 : m.hashType = some HashMurmur3) (h4 : makeShard (u64ToInt (m.fanout.getD 0)) [] none = .ok s) :
    newHamtFromDag (.proto d ls b) = .ok (.mk s.size (bfSetBytes s.bf m.getData) (ls.map Slot.link) (some b) [] none) := by
  have h5 : FSNode.type ⟨m⟩ = THAMTShard := h2
  simp only [newHamtFromDag, FSNode.fromBytes, h1, h5, h3, h4, Option.getD_some, ne_eq, not_true_eq_false, if_false]
  rfl

/-- Loading a serialised shard. -/
theorem load_toN (h : ValidSize size) {cs : List Kid} (hl : ∀ i ∈ idxs cs, i < size) (b : Builder) :
    newHamtFromDag (.proto (shardData size (idxs cs)) (kidLinks size cs) b)
      = .ok (.mk size (bfOf size (idxs cs)) ((kidLinks size cs).map Slot.link) (some b) [] none) := by
  have h4 : makeShard (u64ToInt ((some (UInt64.ofNat size)).getD 0)) [] none = .ok (.mk size (bfNew size) [] none [] none) := by
    rw [Option.getD_some, u64ToInt_size h, makeShard_valid h]
  rw [load_core (shardData_unmarshal h _ hl) rfl rfl h4]
  simp only [Shard.size, Shard.bf, Pb.Data.getData]
  rw [bfSetBytes_bytes size _ (isBf_bfOf (valid_dvd h) hl).len]

theorem repL_kidLinks (h : ValidSize size) : ∀ {cs : List Kid}, (∀ i ∈ idxs cs, i < size) → (∀ x ∈ subsL size cs, GoodSub A x) →
    RepL size A ((kidLinks size cs).map Slot.link) cs
  | [], _, _ => by simp [kidLinks, RepL]
  | .mk i t :: cs, hl, hx => by
    simp only [kidLinks, List.map_cons, RepL]
    refine ⟨⟨⟨_, prefix_length h (hl i (by simp [idxs])), rfl⟩, fun x hx' => hx x (by simp [subsL, hx'])⟩, ?_⟩
    exact repL_kidLinks h (fun j hj => hl j (by simp [idxs] at hj ⊢; exact .inr hj)) (fun x hx' => hx x (by simp [subsL, hx']))

/-- A loaded serialised shard represents the trie. -/
theorem repS_load (h : ValidSize size) {cs : List Kid} (hl : ∀ i ∈ idxs cs, i < size) {b : Builder}
    (hx : ∀ x ∈ (Trie.node b cs).subs size, GoodSub A x) :
    ∃ s, newHamtFromDag ((Trie.node b cs).toN size) = .ok s ∧ RepS size A s (.node b cs) := by
  refine ⟨_, by rw [Trie.toN]; exact load_toN h hl b, ?_⟩
  simp only [Trie.subs, List.mem_cons] at hx
  obtain ⟨_, d, ls, b', he, hb⟩ := hx _ (.inl rfl)
  simp only [Node.proto.injEq] at he
  rw [← he.2.2] at hb
  exact ⟨rfl, rfl, rfl, hb, isBf_bfOf (valid_dvd h) hl, repL_kidLinks h hl (fun x hx' => hx x (.inr hx'))⟩

/-! ### Children operations -/

theorem repS_node {s : Shard} {b : Builder} {cs : List Kid} : RepS size A s (.node b cs) ↔
    s.size = size ∧ s.key = [] ∧ s.val = none ∧ pbBuilder s.builder = b ∧ IsBf size s.bf (idxs cs) ∧ RepL size A s.slots cs := by
  rw [RepS]

theorem repS_leaf {s : Shard} {k : Bytes} {v : Val} : RepS size A s (.leaf k v) ↔ s.key = k ∧ ∃ nm, NameOk size k nm ∧ s.val = some (.mk nm v.1 v.2) := by
  rw [RepS]

theorem repS_isValue {s : Shard} {t : Trie} (h : RepS size A s t) (hk : ∀ k v, t = .leaf k v → k ≠ []) :
    s.isValueNode = (match t with | .leaf .. => true | .node .. => false) := by
  cases t with
  | leaf k v =>
    obtain ⟨h1, nm, _, h2⟩ := repS_leaf.mp h
    simp [Shard.isValueNode, h1, h2, hk k v rfl]
  | node b cs =>
    obtain ⟨_, h1, h2, _⟩ := repS_node.mp h
    simp [Shard.isValueNode, h1]

theorem sliceIndex_eq {s : Shard} {b : Builder} {cs : List Kid} (hs : Sorted cs) (h : RepS size A s (.node b cs)) {i : Nat} (hi : i < size) :
    s.sliceIndex i = kpos cs i := by
  rw [Shard.sliceIndex, onesBefore_eq (repS_node.mp h).2.2.2.2.1 hi, kpos_eq hs]

theorem bit_iff {s : Shard} {b : Builder} {cs : List Kid} (h : RepS size A s (.node b cs)) {i : Nat} (hi : i < size) :
    bfBit s.bf i = (kget cs i).isSome := by
  rw [(repS_node.mp h).2.2.2.2.1.bit i hi]
  cases hg : kget cs i with
  | none => simpa using kget_none_iff.mp hg
  | some t =>
    simp only [Option.isSome_some, decide_eq_true_eq]
    by_contra hc
    rw [kget_none_iff.mpr hc] at hg; cases hg

theorem f2_split {R : Slot → Kid → Prop} {ss : List Slot} {X : List Kid} {c : Kid} {Y : List Kid} (h : List.Forall₂ R ss (X ++ c :: Y)) :
    ∃ S0 s S1, ss = S0 ++ s :: S1 ∧ S0.length = X.length ∧ List.Forall₂ R S0 X ∧ R s c ∧ List.Forall₂ R S1 Y := by
  induction X generalizing ss with
  | nil => cases h with | cons h1 h2 => exact ⟨[], _, _, rfl, rfl, .nil, h1, h2⟩
  | cons x X ih =>
    cases h with
    | cons h1 h2 =>
      obtain ⟨S0, s, S1, he, hl, a, b, c⟩ := ih h2
      exact ⟨_ :: S0, s, S1, by rw [he]; rfl, by simp [hl], .cons h1 a, b, c⟩

theorem f2_split2 {R : Slot → Kid → Prop} {ss : List Slot} {X Y : List Kid} (h : List.Forall₂ R ss (X ++ Y)) :
    ∃ S0 S1, ss = S0 ++ S1 ∧ S0.length = X.length ∧ List.Forall₂ R S0 X ∧ List.Forall₂ R S1 Y := by
  induction X generalizing ss with
  | nil => exact ⟨[], ss, rfl, rfl, .nil, h⟩
  | cons x X ih =>
    cases h with
    | cons h1 h2 =>
      obtain ⟨S0, S1, he, hl, a, b⟩ := ih h2
      exact ⟨_ :: S0, S1, by rw [he]; rfl, by simp [hl], .cons h1 a, b⟩

theorem f2_app {R : Slot → Kid → Prop} {S0 S1 : List Slot} {X Y : List Kid} (h0 : List.Forall₂ R S0 X) (h1 : List.Forall₂ R S1 Y) :
    List.Forall₂ R (S0 ++ S1) (X ++ Y) := by
  induction h0 with
  | nil => exact h1
  | cons a _ ih => exact .cons a ih

theorem repSl_idx {sl : Slot} {i j : Nat} {t : Trie} : RepSl size A sl (.mk i t) ↔ RepSl size A sl (.mk j t) := by
  cases sl <;> simp [RepSl]

@[simp] theorem slots_withSlots (s : Shard) (bf : Bytes) (l : List Slot) : (s.withSlots bf l).slots = l := by cases s; rfl
@[simp] theorem bf_withSlots (s : Shard) (bf : Bytes) (l : List Slot) : (s.withSlots bf l).bf = bf := by cases s; rfl
@[simp] theorem size_withSlots (s : Shard) (bf : Bytes) (l : List Slot) : (s.withSlots bf l).size = s.size := by cases s; rfl
@[simp] theorem key_withSlots (s : Shard) (bf : Bytes) (l : List Slot) : (s.withSlots bf l).key = s.key := by cases s; rfl
@[simp] theorem val_withSlots (s : Shard) (bf : Bytes) (l : List Slot) : (s.withSlots bf l).val = s.val := by cases s; rfl
@[simp] theorem builder_withSlots (s : Shard) (bf : Bytes) (l : List Slot) : (s.withSlots bf l).builder = s.builder := by cases s; rfl

/-- Replacing the slot at the position of index `i`. -/
theorem rep_set {s : Shard} {b : Builder} {cs : List Kid} (hs : Sorted cs) (h : RepS size A s (.node b cs)) {i : Nat}
    (hg : kget cs i ≠ none) {sl : Slot} {t : Trie} (hsl : RepSl size A sl (.mk i t)) :
    RepS size A (s.withSlots s.bf (s.slots.set (kpos cs i) sl)) (.node b (kset cs i t)) := by
  rw [repS_node] at h ⊢
  obtain ⟨h1, h2, h3, h4, h5, h6⟩ := h
  refine ⟨by simpa using h1, by simpa using h2, by simpa using h3, by simpa using h4, by rw [idxs_kset]; simpa using h5, ?_⟩
  rcases sorted_split hs i with ⟨hn, _⟩ | ⟨t0, hg0, _, X, Y, rfl, hX, hY⟩
  · exact absurd hn hg
  rw [(present_ops hX hY).1, (present_ops (t := t) hX hY).2.2, slots_withSlots, repL_iff]
  rw [repL_iff] at h6
  obtain ⟨S0, s0, S1, he, hl, a, _, c⟩ := f2_split h6
  rw [he, ← hl, List.set_append_right _ _ (le_refl _), Nat.sub_self, List.set_cons_zero]
  exact f2_app a (.cons hsl c)

theorem setChild_set (s : Shard) (c : Shard) (i : Nat) : s.setChild c i = s.withSlots s.bf (s.slots.set i (.child c)) := rfl

theorem setChild_setChild (s c c' : Shard) (i : Nat) : (s.setChild c i).setChild c' i = s.setChild c' i := by
  cases s; simp [Shard.setChild, Shard.withSlots, Shard.slots, Shard.bf]

theorem kset_self {cs : List Kid} (hs : Sorted cs) {i : Nat} {t : Trie} (hg : kget cs i = some t) : kset cs i t = cs := by
  apply kids_ext (sorted_kset hs) hs
  intro j
  have hi : i ∈ idxs cs := by
    by_contra hc
    rw [kget_none_iff.mpr hc] at hg; cases hg
  rw [kget_kset hs hi]
  split
  · rename_i h; rw [h, hg]
  · rfl

/-- Removing the slot of index `i`. -/
theorem rep_rm {s : Shard} {b : Builder} {cs : List Kid} (hs : Sorted cs) (h : RepS size A s (.node b cs)) {i : Nat} (hi : i < size)
    (hg : kget cs i ≠ none) : ∃ s', s.rm i = .ok s' ∧ RepS size A s' (.node b (kdel cs i)) := by
  have hsi := sliceIndex_eq hs h hi
  rw [repS_node] at h
  obtain ⟨h1, h2, h3, h4, h5, h6⟩ := h
  rcases sorted_split hs i with ⟨hn, _⟩ | ⟨t0, hg0, _, X, Y, rfl, hX, hY⟩
  · exact absurd hn hg
  obtain ⟨_, hd, hp⟩ := present_ops (t := t0) (t0 := t0) hX hY
  rw [repL_iff] at h6
  obtain ⟨S0, s0, S1, he, hl, a, _, c⟩ := f2_split h6
  rw [hp] at hsi
  refine ⟨_, by rw [Shard.rm, hsi, if_neg (by rw [he]; simp [hl])], ?_⟩
  rw [repS_node]
  refine ⟨by simpa using h1, by simpa using h2, by simpa using h3, by simpa using h4, ?_, ?_⟩
  · rw [bf_withSlots]
    refine isBf_unset h5 hi ?_
    intro j
    simp only [idxs, kdel, List.mem_map, List.mem_filter, decide_eq_true_eq]
    constructor
    · rintro ⟨c, ⟨hc, hne⟩, rfl⟩; exact ⟨hne, c, hc, rfl⟩
    · rintro ⟨hne, c, hc, rfl⟩; exact ⟨c, ⟨hc, hne⟩, rfl⟩
  · rw [slots_withSlots, hd, he, repL_iff, ← hl]
    rw [List.eraseIdx_append_of_length_le (le_refl _)]
    simp only [Nat.sub_self, List.eraseIdx_cons_zero]
    exact f2_app a c

/-- Inserting a value at the free index `i`. -/
theorem rep_insert (hv : ValidSize size) {s : Shard} {b : Builder} {cs : List Kid} (hs : Sorted cs) (h : RepS size A s (.node b cs)) {i : Nat} (hi : i < size)
    (hg : kget cs i = none) (key : Bytes) (l : Link) :
    ∃ s', s.insert key (some l) i = .ok s' ∧ RepS size A s' (.node b (kins cs i (.leaf key (l.tsize, l.target)))) := by
  have hsi := sliceIndex_eq hs h hi
  rw [repS_node] at h
  obtain ⟨h1, h2, h3, h4, h5, h6⟩ := h
  rcases sorted_split hs i with ⟨_, _, X, Y, rfl, hX, hY⟩ | ⟨t0, hg0, _⟩
  swap
  · rw [hg0] at hg; cases hg
  obtain ⟨hk, hp⟩ := absent_ops (t := .leaf key (l.tsize, l.target)) hX hY
  rw [repL_iff] at h6
  obtain ⟨S0, S1, he, hl, a, c⟩ := f2_split2 h6
  rw [hp] at hsi
  have hms := makeShard_valid (size := 256) ⟨8, by omega, by omega, rfl⟩ key (some (Link.rename l (linkNamePrefix s.size i ++ key)))
  simp only [Nat.cast_ofNat] at hms
  refine ⟨_, by simp only [Shard.insert, hms]; rw [hsi, if_neg (by rw [he]; simp [hl])], ?_⟩
  rw [repS_node]
  refine ⟨by simpa using h1, by simpa using h2, by simpa using h3, by simpa using h4, ?_, ?_⟩
  · rw [bf_withSlots]
    refine isBf_set h5 hi ?_
    intro j
    rw [hk]
    simp only [idxs, List.map_append, List.map_cons, List.mem_append, List.mem_cons, Kid.idx_mk]
    tauto
  · rw [slots_withSlots, he, hk, repL_iff, ← hl]
    simp only [List.take_left, List.drop_left]
    refine f2_app a (.cons ?_ c)
    simp only [RepSl, Kid.trie_mk]
    rw [repS_leaf]
    exact ⟨rfl, _, ⟨by simp, by rw [List.length_append, h1, prefix_length hv hi]⟩, rfl⟩

theorem insert_none (s : Shard) (key : Bytes) (i : Nat) : s.insert key none i = .error .notExist := rfl

/-- A fetch of an available node that failed at or after `t`, before `t'`. -/
def FetchFail (A : Node → Prop) (net : Net) (t t' : Nat) : Prop := ∃ u x, t ≤ u ∧ u < t' ∧ net u x = false ∧ A x

/-- Getting the child at index `i`. -/
theorem get_spec (hv : ValidSize size) {s : Shard} {b : Builder} {cs : List Kid} (hs : Sorted cs) (h : RepS size A s (.node b cs)) {i : Nat}
    {t : Trie} (hg : kget cs i = some t) (hkey : ∀ k v, t = .leaf k v → k ≠ []) (hix : ∀ b' cs', t = .node b' cs' → ∀ j ∈ idxs cs', j < size)
    (net : Net) (tm : Nat) :
    (∃ t', s.get net (kpos cs i) tm = (.error .notFound, t') ∧ FetchFail A net tm t') ∨
    ∃ c t', s.get net (kpos cs i) tm = (.ok (c, s.setChild c (kpos cs i)), t') ∧ tm ≤ t' ∧ RepS size A c t := by
  have h' := h
  rw [repS_node] at h
  obtain ⟨h1, h2, h3, h4, h5, h6⟩ := h
  rcases sorted_split hs i with ⟨hn, _⟩ | ⟨t0, hg0, _, X, Y, rfl, hX, hY⟩
  · rw [hn] at hg; cases hg
  rw [hg0] at hg; cases hg
  obtain ⟨_, _, hp⟩ := present_ops (t := t) (t0 := t) hX hY
  rw [repL_iff] at h6
  obtain ⟨S0, s0, S1, he, hl, a, hr, c⟩ := f2_split h6
  have hsl : s.slots[kpos (X ++ Kid.mk i t :: Y) i]? = some s0 := by rw [hp, he, ← hl]; simp
  cases s0 with
  | child ch =>
    right
    refine ⟨ch, tm, ?_, le_refl _, by simpa [RepSl] using hr⟩
    rw [Shard.get, hsl]
    dsimp only
    congr 3
    rw [Shard.setChild, hp, he, ← hl]
    rw [List.set_append_right _ _ (le_refl _), Nat.sub_self, List.set_cons_zero, ← he]
    cases s; rfl
  | link l =>
    simp only [RepSl, Kid.trie_mk] at hr
    obtain ⟨⟨p, hpl, hle⟩, hsub⟩ := hr
    have hnm : l.name = p ++ t.tkey := by rw [hle]; rfl
    rw [Shard.get, hsl]
    dsimp only
    cases t with
    | leaf k v =>
      right
      have hk0 := hkey k v rfl
      have hkl : 0 < k.length := List.length_pos_iff.mpr hk0
      have hct : childLinkType s.size l = .ok .shardValueLink := by
        rw [childLinkType, hnm, h1, Trie.tkey, List.length_append, hpl, if_neg (by omega), if_neg (by omega)]
      rw [hct]
      dsimp only
      have hmk : makeShardValue s.size l = .ok (.mk size (bfNew size) [] none k (some l)) := by
        rw [makeShardValue, h1, makeShard_valid hv, hnm, Trie.tkey, ← hpl, List.drop_left]
      rw [hmk]
      refine ⟨_, tm, rfl, le_refl _, ?_⟩
      rw [repS_leaf]
      exact ⟨rfl, p ++ k, ⟨by simp, by rw [List.length_append, hpl]⟩, by show some l = _; rw [hle]; rfl⟩
    | node b' cs' =>
      have hct : childLinkType s.size l = .ok .shardLink := by
        rw [childLinkType, hnm, h1, Trie.tkey, List.append_nil, hpl, if_neg (by omega), if_pos rfl]
      rw [hct]
      dsimp only
      have htg : l.target = (Trie.node b' cs').toN size := by rw [hle]; rfl
      by_cases hnet : net tm l.target = true
      · right
        rw [if_pos hnet, htg]
        obtain ⟨c, hc, hrep⟩ := repS_load hv (hix b' cs' rfl) hsub
        rw [hc]
        exact ⟨c, tm + 1, rfl, by omega, hrep⟩
      · left
        rw [if_neg hnet]
        refine ⟨tm + 1, rfl, tm, l.target, le_refl _, by omega, by simpa using hnet, ?_⟩
        rw [htg, Trie.toN]
        exact (hsub _ (by simp [Trie.subs])).1

end Unixfs.Hamt
