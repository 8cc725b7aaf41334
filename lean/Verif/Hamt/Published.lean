import Verif.Spec.Published
import Verif.Hamt.PropLemmas
import Verif.Props.Bytes

/-!
# A canonical trie is written in the published form (C111)

The definitions in this file belong to proofs; they model no code.
-/

namespace Unixfs.Hamt
open Unixfs Unixfs.Spec

variable {H : Hash} {lg : Nat}

theorem slotName_all : ∀ lg ∈ [3, 4, 5, 6, 7, 8, 9, 10], ∀ i < 2 ^ lg, linkNamePrefix (2 ^ lg) i = slotName lg i := by decide +kernel

theorem slotName_eq (hp : HP H lg) {i : Nat} (hi : i < 2 ^ lg) : linkNamePrefix (2 ^ lg) i = slotName lg i := by
  have h1 := hp.lo
  have h2 := hp.hi
  have : lg = 3 ∨ lg = 4 ∨ lg = 5 ∨ lg = 6 ∨ lg = 7 ∨ lg = 8 ∨ lg = 9 ∨ lg = 10 := by omega
  exact slotName_all lg (by simp; omega) i hi

/-! ### Bitmaps -/

theorem sum_bits (n s : Nat) : ((List.range s).map (fun i => n / 2 ^ i % 2 * 2 ^ i)).sum = n % 2 ^ s := by
  induction s with
  | zero => simp [Nat.mod_one]
  | succ s ih => rw [List.range_succ, List.map_append, List.sum_append, ih, Nat.mod_pow_succ]; simp [Nat.mul_comm]

theorem beNat_bf {size : Nat} {bf : Bytes} {l : List Nat} (h : IsBf size bf l) : beNat bf = ((List.range size).map (fun i => if i ∈ l then 2 ^ i else 0)).sum := by
  have hlt : beNat bf < 2 ^ size := by
    have := beNat_lt bf
    rw [← h.len, Nat.mul_comm, pow_mul]; exact this
  rw [← Nat.mod_eq_of_lt hlt, ← sum_bits]
  congr 1
  apply List.map_congr_left
  intro i hi
  have hi := List.mem_range.mp hi
  have hb := h.bit i hi
  rw [bfBit_beNat _ _ (by rw [h.len]; exact hi)] at hb
  rw [← Nat.mod_eq_of_lt hlt] at hb ⊢
  rw [Nat.mod_eq_of_lt hlt] at hb ⊢
  have := Nat.mod_two_eq_zero_or_one (beNat bf / 2 ^ i)
  by_cases hm : i ∈ l
  · rw [if_pos hm]
    rw [decide_eq_true hm, decide_eq_true_eq] at hb
    rw [hb]; simp
  · rw [if_neg hm]
    rw [decide_eq_false hm, decide_eq_false_iff_not] at hb
    rw [show beNat bf / 2 ^ i % 2 = 0 by omega]; simp

theorem beNat_snoc (xs : Bytes) (c : UInt8) : beNat (xs ++ [c]) = beNat xs * 256 + c.toNat := by
  induction xs with
  | nil => simp [beNat]
  | cons x xs ih => simp only [List.cons_append, beNat, ih, List.length_append, List.length_cons, List.length_nil, pow_succ]; ring

theorem bigEndian_beNat (x : UInt8) (hx : x ≠ 0) (xs : Bytes) : bigEndian (beNat (x :: xs)) = x :: xs := by
  have pos : ∀ ys : Bytes, 0 < beNat (x :: ys) := by
    intro ys
    rw [beNat]
    have : 0 < x.toNat := Nat.pos_of_ne_zero (fun h => hx (UInt8.toNat_inj.mp h))
    have := Nat.mul_pos this (Nat.pow_pos (n := ys.length) (show 0 < 256 by norm_num))
    omega
  induction xs using List.reverseRecOn with
  | nil =>
    have h1 := pos []
    have h2 := x.toNat_lt
    simp only [beNat, List.length_nil, pow_zero, Nat.mul_one, Nat.add_zero] at h1 ⊢
    rw [bigEndian, if_neg (by omega), Nat.div_eq_of_lt (by omega), bigEndian, if_pos rfl, Nat.mod_eq_of_lt (by omega)]
    simp
  | append_singleton ys c ih =>
    have h1 := pos (ys ++ [c])
    have h2 := c.toNat_lt
    rw [← List.cons_append] at h1 ⊢
    rw [bigEndian, if_neg (by omega), beNat_snoc, show (beNat (x :: ys) * 256 + c.toNat) / 256 = beNat (x :: ys) by omega, ih,
      show (beNat (x :: ys) * 256 + c.toNat) % 256 = c.toNat by omega]
    simp

theorem bfBytes_bigEndian : ∀ bf : Bytes, bfBytes bf = if beNat bf = 0 then none else some (bigEndian (beNat bf))
  | [] => by simp [bfBytes, beNat]
  | x :: xs => by
    rw [bfBytes]
    by_cases hx : x = 0
    · subst hx
      rw [if_neg (by simp), bfBytes_bigEndian xs, beNat]
      simp
    · rw [if_pos hx, bigEndian_beNat x hx, if_neg]
      rw [beNat]
      have : 0 < x.toNat := Nat.pos_of_ne_zero (fun h => hx (UInt8.toNat_inj.mp h))
      have := Nat.mul_pos this (Nat.pow_pos (n := xs.length) (show 0 < 256 by norm_num))
      omega

theorem shardData_bytes (hp : HP H lg) {d : Nat} {es : List Entry} {l : List Nat} (hl : ∀ i ∈ l, i < 2 ^ lg)
    (h : ∀ i < 2 ^ lg, i ∈ l ↔ inSlot H lg d es i ≠ []) : shardData (2 ^ lg) l = shardBytes H lg d es := by
  have hv := hp.valid
  have hb := isBf_bfOf (valid_dvd hv) hl
  have hlen := hb.len
  have hle := (valid_le hv).1
  have e : beNat (bfOf (2 ^ lg) l) = bitmap H lg d es := by
    rw [beNat_bf hb, bitmap]
    congr 1
    apply List.map_congr_left
    intro i hi
    have := h i (List.mem_range.mp hi)
    by_cases hm : i ∈ l
    · rw [if_pos hm, if_neg (this.mp hm)]
    · rw [if_neg hm, if_pos (by by_contra h'; exact hm (this.mpr h'))]
  have hbl := bfBytes_length (bfOf (2 ^ lg) l)
  have hm := (Props.C110_constructors (bfBytes (bfOf (2 ^ lg) l)) [] [] 0 (UInt64.ofNat (2 ^ lg)) HashMurmur3 0 (by omega) (by simp) (by simp)).2.2.2.2.1
  rw [hamtShardData, mustMarshal_ok _ rfl] at hm
  simp only [Except.ok.injEq] at hm
  rw [shardData, hm, shardBytes, bfBytes_bigEndian, e]
  have h1 : (UInt64.ofNat (2 ^ lg)).toNat = 2 ^ lg := by rw [UInt64.toNat_ofNat']; exact Nat.mod_eq_of_lt (by omega)
  rw [h1]
  by_cases h0 : bitmap H lg d es = 0
  · rw [if_pos h0, if_pos h0]; rfl
  · rw [if_neg h0, if_neg h0]; rfl

/-! ### From tries to published nodes -/

/-- `es` lists what is found. -/
structure ListsT (n d : Nat) (cs : List Kid) (es : List Entry) : Prop where
  nodup : (es.map Prod.fst).Nodup
  mem : ∀ k v, (k, v) ∈ es ↔ tfind (hix H lg) n d cs k = some v

theorem slot_hix (hp : HP H lg) {d : Nat} (hd : d < levels lg) (k : Bytes) : slotOf H lg d k = hix H lg k d := (hix_slice hp k hd).symm

theorem inSlot_nodup {d : Nat} {es : List Entry} (h : (es.map Prod.fst).Nodup) (i : Nat) : ((inSlot H lg d es i).map Prod.fst).Nodup :=
  h.sublist (List.filter_sublist.map _)

theorem published_of (hp : HP H lg) (b : Builder) (n : Nat) : ∀ (d : Nat) (P : Bytes → Prop) (cs : List Kid) (es : List Entry), n + d = levels lg →
    WF (hix H lg) (2 ^ lg) n d P cs → Canon b n cs → ListsT (H := H) (lg := lg) n d cs es → HamtForm H lg b d es ((Trie.node b cs).toN (2 ^ lg)) := by
  induction n with
  | zero => intro d P cs es _ hw; exact hw.elim
  | succ n ih =>
    intro d P cs es hn hw hc hes
    have hdl : d < levels lg := by omega
    have hd64 : (d + 1) * lg ≤ 64 :=
      Nat.le_trans (Nat.mul_le_mul_right _ (show d + 1 ≤ levels lg by omega)) (Nat.div_mul_le_self 64 lg)
    have hidx : ∀ i ∈ idxs cs, i < 2 ^ lg := by
      intro i hi
      simp only [idxs, List.mem_map] at hi
      obtain ⟨c, hc', rfl⟩ := hi
      exact (hw.2 c hc').1
    have memS : ∀ i k v, (k, v) ∈ inSlot H lg d es i ↔ hix H lg k d = i ∧ (kget cs i).bind (tsub (hix H lg) n (d + 1) k) = some v := by
      intro i k v
      simp only [inSlot, List.mem_filter, hes.mem, decide_eq_true_eq, slot_hix hp hdl]
      rw [tfind_succ]
      constructor
      · rintro ⟨h1, rfl⟩; exact ⟨rfl, h1⟩
      · rintro ⟨rfl, h1⟩; exact ⟨h1, rfl⟩
    have sNone : ∀ i, kget cs i = none → inSlot H lg d es i = [] := by
      intro i hg
      apply List.eq_nil_iff_forall_not_mem.mpr
      rintro ⟨k, v⟩ hm
      have := ((memS i k v).mp hm).2
      rw [hg] at this; cases this
    have sLeaf : ∀ i k v, kget cs i = some (.leaf k v) → inSlot H lg d es i = [(k, v)] := by
      intro i k v hg
      have hm : (k, v) ∈ inSlot H lg d es i := (memS i k v).mpr ⟨(hw.leaf hg).2.2.1, by rw [hg]; simp [tsub]⟩
      have hall : ∀ e ∈ inSlot H lg d es i, e = (k, v) := by
        rintro ⟨k', v'⟩ h'
        have := ((memS i k' v').mp h').2
        rw [hg] at this
        simp only [Option.bind_some, tsub] at this
        split at this
        next e => cases this; rw [e]
        · cases this
      have hnd := inSlot_nodup (H := H) (lg := lg) (d := d) hes.nodup i
      match hL : inSlot H lg d es i, hm, hall, hnd with
      | [], hm, _, _ => cases hm
      | [e], _, hall, _ => rw [hall e (by simp)]
      | e :: e' :: r, _, hall, hnd =>
        exfalso
        rw [hall e (by simp), hall e' (by simp)] at hnd
        simp at hnd
    have sNode : ∀ i b' cs', kget cs i = some (.node b' cs') → b' = b ∧ 2 ≤ (inSlot H lg d es i).length ∧
        HamtForm H lg b (d + 1) (inSlot H lg d es i) ((Trie.node b cs').toN (2 ^ lg)) := by
      intro i b' cs' hg
      obtain ⟨rfl, hnc, hcc⟩ := hc _ _ _ hg
      obtain ⟨_, hw'⟩ := hw.node hg
      refine ⟨rfl, ?_, ih (d + 1) _ cs' _ (by omega) hw' hcc ⟨inSlot_nodup hes.nodup i, ?_⟩⟩
      · obtain ⟨k1, k2, hne, h1, h2⟩ := two_keys b' n _ _ _ hw' hcc hnc
        obtain ⟨v1, h1⟩ := Option.ne_none_iff_exists'.mp h1
        obtain ⟨v2, h2⟩ := Option.ne_none_iff_exists'.mp h2
        have m1 := (memS i k1 v1).mpr ⟨(tfind_some hw' h1).1.2, by rw [hg]; exact h1⟩
        have m2 := (memS i k2 v2).mpr ⟨(tfind_some hw' h2).1.2, by rw [hg]; exact h2⟩
        match hL : inSlot H lg d es i, m1, m2 with
        | [], m1, _ => cases m1
        | [e], m1, m2 =>
          simp only [List.mem_singleton] at m1 m2
          rw [← m1] at m2; cases m2; exact absurd rfl hne
        | _ :: _ :: _, _, _ => simp
      · intro k v
        rw [memS, hg]
        simp only [Option.bind_some, tsub]
        exact ⟨fun h => h.2, fun h => ⟨(tfind_some hw' h).1.2, h⟩⟩
    have hused : ∀ i < 2 ^ lg, i ∈ idxs cs ↔ inSlot H lg d es i ≠ [] := by
      intro i _
      cases hg : kget cs i with
      | none => rw [sNone i hg]; simp [kget_none_iff.mp hg]
      | some t =>
        have hi : i ∈ idxs cs := by by_contra h; rw [kget_none_iff.mpr h] at hg; cases hg
        cases t with
        | leaf k v => rw [sLeaf i k v hg]; simp [hi]
        | node b' cs' =>
          have := (sNode i b' cs' hg).2.1
          refine ⟨fun _ h => ?_, fun _ => hi⟩
          rw [h] at this; simp at this
    let sub : Nat → Node := fun i => match kget cs i with | some t => t.toN (2 ^ lg) | none => default
    have res := HamtForm.mk (H := H) (lg := lg) (b := b) (d := d) (es := es) sub hd64 (by
      intro i _ h2
      cases hg : kget cs i with
      | none => rw [sNone i hg] at h2; simp at h2
      | some t =>
        cases t with
        | leaf k v => rw [sLeaf i k v hg] at h2; simp at h2
        | node b' cs' =>
          obtain ⟨rfl, _, h⟩ := sNode i b' cs' hg
          simp only [sub, hg]
          exact h)
    have hfil : (List.range (2 ^ lg)).filter (fun i => decide (inSlot H lg d es i ≠ [])) = idxs cs := by
      rw [← filter_range_idxs hw.1 hidx]
      apply List.filter_congr
      intro i hi
      exact decide_eq_decide.mpr (hused i (List.mem_range.mp hi)).symm
    rw [hfil, ← shardData_bytes hp hidx hused] at res
    rw [Trie.toN, kidLinks_eq]
    convert res using 2
    rw [idxs, List.map_map]
    apply List.map_congr_left
    rintro ⟨i, t⟩ hm
    have hg := mem_kget hw.1 hm
    have hi : i < 2 ^ lg := (hw.2 _ hm).1
    simp only [Function.comp, Kid.idx_mk, Kid.trie_mk, slotName_eq hp hi]
    cases t with
    | leaf k v =>
      rw [sLeaf i k v hg]
      simp only [Trie.tkey, Trie.tsz, Trie.toN]
    | node b' cs' =>
      have h2 := (sNode i b' cs' hg).2.1
      match hL : inSlot H lg d es i, h2 with
      | [], h2 => simp at h2
      | [_], h2 => simp at h2
      | _ :: _ :: _, _ => simp only [Trie.tkey, Trie.tsz, List.append_nil, sub, hg]

/-! ### From published nodes to tries -/

/-- The trie of a slot. -/
def slotTrie (b : Builder) (csub : Nat → List Kid) (i : Nat) : List Entry → Trie
  | [e] => .leaf e.1 e.2
  | _ => .node b (csub i)

theorem slotTrie_many {b : Builder} {csub : Nat → List Kid} {i : Nat} {l : List Entry} (h : 2 ≤ l.length) : slotTrie b csub i l = .node b (csub i) := by
  match l, h with
  | [], h => simp at h
  | [_], h => simp at h
  | _ :: _ :: _, _ => rfl

theorem sorted_map {f : Nat → Trie} {l : List Nat} (h : l.Pairwise (· < ·)) : Sorted (l.map (fun i => Kid.mk i (f i))) := by
  rw [Sorted, List.pairwise_map]
  exact h

theorem mem_subsL {size : Nat} {x : Node} : ∀ {cs : List Kid}, x ∈ subsL size cs ↔ ∃ i t, Kid.mk i t ∈ cs ∧ x ∈ t.subs size
  | [] => by simp [subsL]
  | .mk i t :: cs => by
    rw [subsL, List.mem_append, mem_subsL]
    constructor
    · rintro (h | ⟨i', t', h1, h2⟩)
      · exact ⟨i, t, by simp, h⟩
      · exact ⟨i', t', by simp [h1], h2⟩
    · rintro ⟨i', t', h1, h2⟩
      rcases List.mem_cons.mp h1 with h1 | h1
      · cases h1; exact .inl h2
      · exact .inr ⟨i', t', h1, h2⟩

theorem slotName_length (hp : HP H lg) {i : Nat} (hi : i < 2 ^ lg) : (slotName lg i).length = digits (2 ^ lg) := by
  rw [← slotName_eq hp hi, prefix_length hp.valid hi, maxpadlen_digits hp.valid]

/-- What the trie of a published node satisfies. -/
structure TrieOf (H : Hash) (lg : Nat) (b : Builder) (n d : Nat) (P : Bytes → Prop) (es : List Entry) (nd : Node) (cs : List Kid) : Prop where
  wf : WF (hix H lg) (2 ^ lg) n d P cs
  canon : Canon b n cs
  lists : ListsT (H := H) (lg := lg) n d cs es
  node : nd = (Trie.node b cs).toN (2 ^ lg)
  subs : ∀ x ∈ (Trie.node b cs).subs (2 ^ lg), SubShard (digits (2 ^ lg)) nd x ∧ ∃ d' ls, x = .proto d' ls b

theorem trie_of_published (hp : HP H lg) {b : Builder} {d : Nat} {es : List Entry} {nd : Node} (h : HamtForm H lg b d es nd) :
    ∀ (n : Nat) (P : Bytes → Prop), n + d = levels lg → (es.map Prod.fst).Nodup → (∀ e ∈ es, P e.1 ∧ e.1 ≠ []) → ∃ cs, TrieOf H lg b n d P es nd cs := by
  induction h with
  | @mk d es sub hd hsub ih =>
    intro n P hn hnd hP
    have hlo := hp.lo
    have hdl : d < levels lg := by
      rw [levels, Nat.lt_iff_add_one_le, Nat.le_div_iff_mul_le (by omega)]
      exact hd
    obtain ⟨n, rfl⟩ : ∃ m, n = m + 1 := ⟨n - 1, by omega⟩
    have memS : ∀ i e, e ∈ inSlot H lg d es i ↔ e ∈ es ∧ hix H lg e.1 d = i := by
      intro i e
      simp only [inSlot, List.mem_filter, decide_eq_true_eq, slot_hix hp hdl]
    have hch : ∀ i, ∃ cs, i < 2 ^ lg → 2 ≤ (inSlot H lg d es i).length →
        TrieOf H lg b n (d + 1) (fun k => P k ∧ hix H lg k d = i) (inSlot H lg d es i) (sub i) cs := by
      intro i
      by_cases hi : i < 2 ^ lg
      · by_cases h2 : 2 ≤ (inSlot H lg d es i).length
        · obtain ⟨cs, hcs⟩ := ih i hi h2 n (fun k => P k ∧ hix H lg k d = i) (by omega) (inSlot_nodup hnd i) (by
            intro e he
            have := (memS i e).mp he
            exact ⟨⟨(hP e this.1).1, this.2⟩, (hP e this.1).2⟩)
          exact ⟨cs, fun _ _ => hcs⟩
        · exact ⟨[], fun _ h => absurd h h2⟩
      · exact ⟨[], fun h => absurd h hi⟩
    choose csub hcsub using hch
    let used := (List.range (2 ^ lg)).filter (fun i => decide (inSlot H lg d es i ≠ []))
    let f : Nat → Trie := fun i => slotTrie b csub i (inSlot H lg d es i)
    have hused : ∀ i, i ∈ used ↔ i < 2 ^ lg ∧ inSlot H lg d es i ≠ [] := by
      intro i; simp only [used, List.mem_filter, List.mem_range, decide_eq_true_eq]
    have hsort : Sorted (used.map (fun i => Kid.mk i (f i))) := sorted_map (List.pairwise_lt_range.filter _)
    have hid : idxs (used.map (fun i => Kid.mk i (f i))) = used := by
      rw [idxs, List.map_map]; exact (List.map_congr_left (fun _ _ => rfl)).trans (List.map_id _)
    have hmemK : ∀ i t, Kid.mk i t ∈ used.map (fun i => Kid.mk i (f i)) ↔ i ∈ used ∧ t = f i := by
      intro i t
      rw [List.mem_map]
      constructor
      · rintro ⟨j, hj, e⟩; cases e; exact ⟨hj, rfl⟩
      · rintro ⟨hj, rfl⟩; exact ⟨i, hj, rfl⟩
    have hget : ∀ i, i ∈ used → kget (used.map (fun i => Kid.mk i (f i))) i = some (f i) :=
      fun i hi => mem_kget hsort ((hmemK i _).mpr ⟨hi, rfl⟩)
    have hgetN : ∀ i, i ∉ used → kget (used.map (fun i => Kid.mk i (f i))) i = none :=
      fun i hi => kget_none_iff.mpr (by rw [hid]; exact hi)
    have hcase : ∀ i, i ∈ used → (∃ e, inSlot H lg d es i = [e] ∧ f i = .leaf e.1 e.2) ∨
        (2 ≤ (inSlot H lg d es i).length ∧ f i = .node b (csub i)) := by
      intro i hi
      have h0 := ((hused i).mp hi).2
      match hL : inSlot H lg d es i, h0 with
      | [], h0 => exact absurd rfl h0
      | [e], _ => exact .inl ⟨e, rfl, by simp only [f, hL, slotTrie]⟩
      | _ :: _ :: _, _ => exact .inr ⟨by simp, by simp only [f, hL, slotTrie]⟩
    have hwf : WF (hix H lg) (2 ^ lg) (n + 1) d P (used.map (fun i => Kid.mk i (f i))) := by
      refine ⟨hsort, ?_⟩
      rintro ⟨i, t⟩ hc
      obtain ⟨hi, rfl⟩ := (hmemK i t).mp hc
      refine ⟨((hused i).mp hi).1, ?_⟩
      simp only [Kid.trie_mk, Kid.idx_mk]
      rcases hcase i hi with ⟨e, he, hf⟩ | ⟨h2, hf⟩
      · rw [hf]
        have := (memS i e).mp (by rw [he]; simp)
        exact ⟨(hP e this.1).1, this.2, (hP e this.1).2⟩
      · rw [hf]
        exact (hcsub i ((hused i).mp hi).1 h2).wf
    have hcan : Canon b (n + 1) (used.map (fun i => Kid.mk i (f i))) := by
      intro i b' cs' hg
      have hi : i ∈ used := by by_contra h; rw [hgetN i h] at hg; cases hg
      rw [hget i hi] at hg
      rcases hcase i hi with ⟨e, he, hf⟩ | ⟨h2, hf⟩
      · rw [hf] at hg; cases hg
      · rw [hf] at hg
        cases hg
        have hT := hcsub i ((hused i).mp hi).1 h2
        refine ⟨rfl, ?_, hT.canon⟩
        have hmem := hT.lists.mem
        have hnd' := hT.lists.nodup
        match hL : inSlot H lg d es i, h2 with
        | [], h2 => simp at h2
        | [_], h2 => simp at h2
        | e1 :: e2 :: r, _ =>
          rw [hL] at hmem hnd'
          have m1 := (hmem e1.1 e1.2).mp (by simp)
          have m2 := (hmem e2.1 e2.2).mp (by simp)
          have hne : e1.1 ≠ e2.1 := by
            simp only [List.map_cons, List.nodup_cons, List.mem_cons, not_or] at hnd'
            exact hnd'.1.1
          constructor
          · intro h; rw [h, tfind_nil] at m1; cases m1
          · intro j k v h
            have one : ∀ key w, tfind (hix H lg) n (d + 1) [Kid.mk j (.leaf k v)] key = some w → k = key := by
              intro key w hw'
              cases n with
              | zero => exact absurd hT.wf (by simp [WF])
              | succ n =>
                rw [tfind_succ] at hw'
                by_cases hj : j = hix H lg key (d + 1)
                · rw [hj] at hw'
                  simp only [kget, List.find?_cons, Kid.idx_mk, decide_true, Option.map_some, Kid.trie_mk, Option.bind_some, tsub] at hw'
                  by_contra hk
                  rw [if_neg hk] at hw'; cases hw'
                · simp [kget, hj] at hw'
            rw [h] at m1 m2
            exact hne ((one _ _ m1).symm.trans (one _ _ m2))
    have hlist : ListsT (H := H) (lg := lg) (n + 1) d (used.map (fun i => Kid.mk i (f i))) es := by
      refine ⟨hnd, fun k v => ?_⟩
      rw [tfind_succ]
      have key : (k, v) ∈ es ↔ (k, v) ∈ inSlot H lg d es (hix H lg k d) := by rw [memS]; simp
      rw [key]
      by_cases hi : hix H lg k d ∈ used
      · rw [hget _ hi, Option.bind_some]
        rcases hcase _ hi with ⟨e, he, hf⟩ | ⟨h2, hf⟩
        · rw [hf, he, tsub]
          obtain ⟨k', v'⟩ := e
          simp only [List.mem_singleton, Prod.mk.injEq]
          constructor
          · rintro ⟨rfl, rfl⟩; rw [if_pos rfl]
          · intro h
            split at h
            next e => cases h; exact ⟨e.symm, rfl⟩
            · cases h
        · rw [hf, tsub]
          exact (hcsub _ ((hused _).mp hi).1 h2).lists.mem k v
      · rw [hgetN _ hi]
        have : inSlot H lg d es (hix H lg k d) = [] := by
          by_contra h'
          exact hi ((hused _).mpr ⟨hix_lt _ _, h'⟩)
        rw [this]; simp
    have hnode : Node.proto (shardBytes H lg d es) (used.map (fun i =>
          match inSlot H lg d es i with
          | [(name, size, node)] => Link.mk (slotName lg i ++ name) size node
          | _ => .mk (slotName lg i) (sub i).size (sub i))) b = (Trie.node b (used.map (fun i => Kid.mk i (f i)))).toN (2 ^ lg) := by
      rw [Trie.toN, kidLinks_eq, hid, shardData_bytes hp (es := es) (d := d) (fun i hi => ((hused i).mp hi).1)
        (fun i hi => by rw [hused]; exact ⟨fun h => h.2, fun h => ⟨hi, h⟩⟩), List.map_map]
      congr 1
      apply List.map_congr_left
      intro i hi
      have hlt := ((hused i).mp hi).1
      simp only [Function.comp, Kid.idx_mk, Kid.trie_mk, slotName_eq hp hlt]
      rcases hcase i hi with ⟨⟨k, v1, v2⟩, he, hf⟩ | ⟨h2, hf⟩
      · rw [hf, he]
        simp only [Trie.tkey, Trie.tsz, Trie.toN]
      · have hT := (hcsub i hlt h2).node
        rw [hf, ← hT]
        match hL : inSlot H lg d es i, h2 with
        | [], h2 => simp at h2
        | [_], h2 => simp at h2
        | _ :: _ :: _, _ => simp only [Trie.tkey, Trie.tsz, List.append_nil]
    refine ⟨_, hwf, hcan, hlist, hnode, ?_⟩
    intro x hx
    have hnode' := hnode
    rw [Trie.toN] at hnode'
    rw [Trie.subs] at hx
    rcases List.mem_cons.mp hx with hx | hx
    · rw [hx]
      refine ⟨?_, _, _, rfl⟩
      have := SubShard.self (digits := digits (2 ^ lg)) (Node.proto (shardData (2 ^ lg) (idxs (used.map (fun i => Kid.mk i (f i))))) (kidLinks (2 ^ lg) (used.map (fun i => Kid.mk i (f i)))) b)
      rw [← hnode'] at this ⊢
      exact this
    · obtain ⟨i, t, hc, hx⟩ := mem_subsL.mp hx
      obtain ⟨hi, rfl⟩ := (hmemK i t).mp hc
      have hlt := ((hused i).mp hi).1
      rcases hcase i hi with ⟨e, he, hf⟩ | ⟨h2, hf⟩
      · rw [hf, Trie.subs] at hx; cases hx
      · rw [hf] at hx
        obtain ⟨hs, hb⟩ := (hcsub i hlt h2).subs x hx
        refine ⟨.link (l := .mk (slotName lg i) (sub i).size (sub i)) ?_ ?_ hs, hb⟩
        · refine List.mem_map.mpr ⟨i, hi, ?_⟩
          match hL : inSlot H lg d es i, h2 with
          | [], h2 => simp at h2
          | [_], h2 => simp at h2
          | _ :: _ :: _, _ => rfl
        · exact slotName_length hp hlt

/-! ### The node depends on the entries only -/

theorem published_unique {b : Builder} {d : Nat} {es : List Entry} {nd : Node} (h1 : HamtForm H lg b d es nd) : ∀ {es' : List Entry} {nd' : Node}, es.Perm es' → HamtForm H lg b d es' nd' → nd = nd' := by
  induction h1 with
  | @mk d es sub hd hsub ih =>
    intro es' nd' hperm h2
    cases h2 with
    | mk sub' _ hsub' =>
      have hp : ∀ i, (inSlot H lg d es i).Perm (inSlot H lg d es' i) := fun i => hperm.filter _
      have hnil : ∀ i, inSlot H lg d es i = [] ↔ inSlot H lg d es' i = [] := fun i =>
        ⟨fun h => by have := hp i; rw [h] at this; exact this.nil_eq.symm, fun h => by have := hp i; rw [h] at this; exact this.eq_nil⟩
      have hbm : bitmap H lg d es = bitmap H lg d es' := by
        simp only [bitmap, hnil]
      have hfil : (List.range (2 ^ lg)).filter (fun i => decide (inSlot H lg d es i ≠ [])) = (List.range (2 ^ lg)).filter (fun i => decide (inSlot H lg d es' i ≠ [])) := by
        simp only [ne_eq, hnil]
      simp only [shardBytes, hbm, hfil]
      congr 1
      apply List.map_congr_left
      intro i hi
      have hlt : i < 2 ^ lg := List.mem_range.mp (List.mem_filter.mp hi).1
      have hpi := hp i
      have hs := fun h h' => ih i hlt h hpi (hsub' i hlt h')
      have hl := hpi.length_eq
      match hL : inSlot H lg d es i, hL' : inSlot H lg d es' i with
      | [], [] => have := (List.mem_filter.mp hi).2; rw [hL'] at this; simp at this
      | [], _ :: _ => rw [hL, hL'] at hl; simp at hl
      | [_], [] => rw [hL, hL'] at hl; simp at hl
      | [e], [e'] => rw [hL, hL'] at hpi; simp only [List.perm_singleton, List.cons.injEq, and_true] at hpi; rw [hpi]
      | [_], _ :: _ :: _ => rw [hL, hL'] at hl; simp at hl
      | _ :: _ :: _, [] => rw [hL, hL'] at hl; simp at hl
      | _ :: _ :: _, [_] => rw [hL, hL'] at hl; simp at hl
      | _ :: _ :: _, _ :: _ :: _ =>
        have := hs (by rw [hL]; simp) (by rw [hL']; simp)
        rw [this]

end Unixfs.Hamt
