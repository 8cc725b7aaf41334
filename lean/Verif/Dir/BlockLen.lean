import Verif.Dir.Hist
import Verif.Hamt.PropLemmas
import Verif.Import.BlockLen

/-!
# Lengths of the blocks of directories

The definitions in this file belong to proofs; they model no code.
-/

namespace Unixfs

namespace Spec

/-- A link with a name. -/
theorem encLink_named_le {cid : Node → Bytes} {l : Link} (h1 : (cid l.target).length < 128) (h2 : (cid l.target).length + l.name.length < 268435000) :
    (Pb.encBytesField 2 (encLink cid l)).length ≤ (cid l.target).length + l.name.length + 23 := by
  have h3 := Pb.encVarint_length_le l.tsize.toNat
  have h4 := Pb.encVarint_length_lt (k := 3) (n := l.name.length) (by omega)
  have h5 : (encLink cid l).length ≤ (cid l.target).length + l.name.length + 18 := by
    unfold encLink
    simp only [List.length_append, Pb.encBytesField_length _ (show 1 < 15 by omega),
      Pb.encBytesField_length _ (show 2 < 15 by omega), Pb.encVarintField_length (show 3 < 16 by omega)]
    rw [Pb.encVarint_one h1]
    omega
  have h6 := Pb.encVarint_length_lt (k := 3) (n := (encLink cid l).length) (by omega)
  rw [Pb.encBytesField_length _ (by omega)]
  omega

theorem encBlock_sum_le {cid : Node → Bytes} {f : Link → Nat} {d : Bytes} {ls : List Link} {b : Builder}
    (h : ∀ l ∈ ls, (Pb.encBytesField 2 (encLink cid l)).length ≤ f l) :
    (encBlock cid (.proto d ls b)).length ≤ (ls.map f).sum + (1 + (Pb.encVarint d.length).length + d.length) := by
  have h1 : ((ls.map (fun l => Pb.encBytesField 2 (encLink cid l))).flatten).length ≤ (ls.map f).sum := by
    induction ls with
    | nil => simp
    | cons l ls ih =>
      simp only [List.map_cons, List.flatten_cons, List.length_append, List.sum_cons]
      have := h l (by simp)
      have := ih (fun x hx => h x (by simp [hx]))
      omega
  simp only [encBlock, List.length_append]
  split
  · simp only [List.length_nil]; omega
  · rw [Pb.encBytesField_length _ (by omega)]; omega

end Spec

namespace Hamt
open Spec

theorem shardData_length {size : Nat} (h : ValidSize size) (l : List Nat) (hl : ∀ i ∈ l, i < size) : (shardData size l).length ≤ size / 8 + 10 := by
  have h1 := bfBytes_length (bfOf size l)
  have h2 := (isBf_bfOf (valid_dvd h) hl).len
  have h3 := (valid_le h).1
  have h4 : (Pb.encVarint (UInt64.toNat (UInt64.ofNat size))).length ≤ 2 := by
    apply Pb.encVarint_length_lt (k := 1)
    rw [UInt64.toNat_ofNat', Nat.mod_eq_of_lt (by omega)]
    omega
  unfold shardData mustMarshal Pb.Data.marshal
  dsimp only
  cases hb : bfBytes (bfOf size l) with
  | none =>
    simp only [Pb.encOpt, List.length_append, Pb.encVarintField_length (show 1 < 16 by omega), Pb.encVarintField_length (show 5 < 16 by omega),
      Pb.encVarintField_length (show 6 < 16 by omega), Pb.encBlocksizes, List.length_nil]
    have h5 : (Pb.encVarint (Pb.signExt THAMTShard)).length = 1 := by decide +kernel
    have h6 : (Pb.encVarint (UInt64.toNat HashMurmur3)).length = 1 := by decide +kernel
    omega
  | some x =>
    rw [hb] at h1
    simp only [Option.getD_some] at h1
    simp only [Pb.encOpt, List.length_append, Pb.encVarintField_length (show 1 < 16 by omega), Pb.encVarintField_length (show 5 < 16 by omega),
      Pb.encVarintField_length (show 6 < 16 by omega), Pb.encBlocksizes, List.length_nil, Pb.encBytesField_length _ (show 2 < 15 by omega)]
    have h5 : (Pb.encVarint (Pb.signExt THAMTShard)).length = 1 := by decide +kernel
    have h6 : (Pb.encVarint (UInt64.toNat HashMurmur3)).length = 1 := by decide +kernel
    have h7 := Pb.encVarint_length_lt (k := 1) (n := x.length) (by omega)
    omega

theorem idx_le_length {n : Nat} {cs : List Kid} (hs : Sorted cs) (hl : ∀ c ∈ cs, c.idx < n) : cs.length ≤ n := by
  have h1 : (cs.map Kid.idx).Nodup := by
    rw [List.nodup_iff_pairwise_ne, List.pairwise_map]
    exact hs.imp (fun h => by omega)
  have h2 : (cs.map Kid.idx).length ≤ (List.range n).length := by
    apply List.Subperm.length_le
    apply List.Nodup.subperm h1
    intro i hi
    obtain ⟨c, hc, rfl⟩ := List.mem_map.mp hi
    exact List.mem_range.mpr (hl c hc)
  simpa using h2

theorem entriesL_mem {e : Bytes × Val} : ∀ (cs : List Kid), e ∈ entriesL cs ↔ ∃ c ∈ cs, e ∈ c.trie.entries
  | [] => by simp [entriesL]
  | c :: cs => by
    have := entriesL_mem (e := e) cs
    cases c; simp [entriesL, this]

theorem digits_le {size : Nat} (h : ValidSize size) : digits size ≤ 3 := by
  have : ∀ s ∈ [8, 16, 32, 64, 128, 256, 512, 1024], digits s ≤ 3 := by decide +kernel
  exact this size (validSize_cases h)

/-- Blocks of a serialised trie. -/
theorem subShard_len {H : Hash} {lg K w : Nat} {cid : Node → Bytes} (hp : HP H lg) (hw : w < 100) (hcid : ∀ x, (cid x).length ≤ w) (hK : K < 268434000) (n : Nat) :
    ∀ (d : Nat) (P : Bytes → Prop) (b : Builder) (cs : List Kid) (x : Node), WF (hix H lg) (2 ^ lg) n d P cs →
    (∀ e ∈ entriesL cs, e.1.length ≤ K) → SubShard (digits (2 ^ lg)) ((Trie.node b cs).toN (2 ^ lg)) x →
    x.links.length ≤ 2 ^ lg ∧ (∀ l ∈ x.links, l.name.length ≤ K + 3) ∧ (encBlock cid x).length ≤ x.links.length * (w + K + 26) + 2 ^ lg / 8 + 13 := by
  induction n with
  | zero => intro d P b cs x hw; exact hw.elim
  | succ n ih =>
    intro d P b cs x hwf hk hx
    have hname : ∀ l ∈ kidLinks (2 ^ lg) cs, l.name.length ≤ K + 3 := by
      intro l hl
      rw [kidLinks_eq] at hl
      obtain ⟨⟨i, t⟩, hc, rfl⟩ := List.mem_map.mp hl
      have hi := (hwf.2 _ hc).1
      simp only [Kid.idx_mk] at hi
      have h1 : (linkNamePrefix (2 ^ lg) i).length = digits (2 ^ lg) := by rw [prefix_length hp.valid hi, maxpadlen_digits hp.valid]
      have h2 := digits_le hp.valid
      simp only [Kid.idx_mk, Kid.trie_mk, Link.name, List.length_append]
      cases t with
      | leaf k v =>
        have := hk (k, v) ((entriesL_mem cs).mpr ⟨_, hc, by simp [Trie.entries]⟩)
        simp only [Trie.tkey]; simp only at this; omega
      | node b' cs' => simp only [Trie.tkey, List.length_nil]; omega
    rw [Trie.toN] at hx
    cases hx with
    | self =>
      simp only [Node.links]
      have hlen : (kidLinks (2 ^ lg) cs).length = cs.length := by rw [kidLinks_eq, List.length_map]
      refine ⟨by rw [hlen]; exact idx_le_length hwf.sorted (fun c hc => (hwf.2 c hc).1), hname, ?_⟩
      have h1 : ∀ l ∈ kidLinks (2 ^ lg) cs, (Pb.encBytesField 2 (encLink cid l)).length ≤ w + K + 26 := by
        intro l hl
        have h2 := hname l hl
        have h3 := hcid l.target
        have := encLink_named_le (cid := cid) (l := l) (by omega) (by omega)
        omega
      have h2 := encBlock_sum_le (cid := cid) (f := fun _ => w + K + 26) (d := shardData (2 ^ lg) (idxs cs)) (b := b) h1
      have h3 := shardData_length hp.valid (idxs cs) (wf_idx hwf)
      have h4 := (valid_le hp.valid).1
      have h5 := Pb.encVarint_length_lt (k := 1) (n := (shardData (2 ^ lg) (idxs cs)).length) (by omega)
      simp only [List.map_const', List.sum_replicate, Nat.nsmul_eq_mul] at h2
      omega
    | link hl hn h =>
      rename_i l
      rw [kidLinks_eq] at hl
      obtain ⟨⟨i, t⟩, hm, rfl⟩ := List.mem_map.mp hl
      have hg := mem_kget hwf.sorted hm
      have hi := (hwf.2 _ hm).1
      simp only [Kid.idx_mk] at hi
      simp only [Link.name, Kid.idx_mk, List.length_append, prefix_length hp.valid hi, maxpadlen_digits hp.valid] at hn
      cases t with
      | leaf k v =>
        have := (hwf.leaf hg).2.2.2
        simp only [Kid.trie_mk, Trie.tkey] at hn
        exact absurd (List.length_eq_zero_iff.mp (by omega)) this
      | node b' cs' =>
        simp only [Link.target] at h
        refine ih _ _ b' cs' x (hwf.node hg).2 (fun e he => hk e ((entriesL_mem cs).mpr ⟨_, hm, ?_⟩)) h
        simp only [Kid.trie_mk, Trie.entries]; exact he

end Hamt

end Unixfs
