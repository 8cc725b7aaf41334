import Verif.Dag
import Mathlib.Data.List.Nodup
import Mathlib.Data.List.Perm.Basic

/-!
# Tries: the mathematical object behind a HAMT

Auxiliary to the proofs: no Go code is modelled here. `ix k d` is the index of key `k` at depth `d`,
`n` the number of levels left.

The definitions in this file belong to proofs; they model no code.
-/

namespace Unixfs.Hamt

/-- The part of a link that is a value: cumulative size and target. -/
abbrev Val := UInt64 × Node

mutual
inductive Trie where
  | leaf (k : Bytes) (v : Val)
  | node (b : Builder) (cs : List Kid)
inductive Kid where
  | mk (i : Nat) (t : Trie)
end

def Kid.idx : Kid → Nat | mk i _ => i
def Kid.trie : Kid → Trie | mk _ t => t

@[simp] theorem Kid.eta (c : Kid) : Kid.mk c.idx c.trie = c := by cases c; rfl
@[simp] theorem Kid.idx_mk (i : Nat) (t : Trie) : (Kid.mk i t).idx = i := rfl
@[simp] theorem Kid.trie_mk (i : Nat) (t : Trie) : (Kid.mk i t).trie = t := rfl

def idxs (cs : List Kid) : List Nat := cs.map Kid.idx

/-- Strictly increasing indices. -/
def Sorted (cs : List Kid) : Prop := cs.Pairwise (fun a b => a.idx < b.idx)

def kget (cs : List Kid) (i : Nat) : Option Trie := (cs.find? (fun c => c.idx = i)).map Kid.trie
def kset (cs : List Kid) (i : Nat) (t : Trie) : List Kid := cs.map (fun c => if c.idx = i then .mk i t else c)
def kins (cs : List Kid) (i : Nat) (t : Trie) : List Kid := cs.filter (fun c => c.idx < i) ++ .mk i t :: cs.filter (fun c => i < c.idx)
def kdel (cs : List Kid) (i : Nat) : List Kid := cs.filter (fun c => c.idx ≠ i)

/-- Number of children before index `i`. -/
def kpos (cs : List Kid) (i : Nat) : Nat := (cs.filter (fun c => c.idx < i)).length

section kids
variable {cs : List Kid} {i j : Nat} {t : Trie}

theorem sorted_split (hs : Sorted cs) (i : Nat) :
    (kget cs i = none ∧ i ∉ idxs cs ∧ ∃ A B, cs = A ++ B ∧ (∀ c ∈ A, c.idx < i) ∧ (∀ c ∈ B, i < c.idx)) ∨
    (∃ t, kget cs i = some t ∧ i ∈ idxs cs ∧ ∃ A B, cs = A ++ .mk i t :: B ∧ (∀ c ∈ A, c.idx < i) ∧ (∀ c ∈ B, i < c.idx)) := by
  induction cs with
  | nil => left; exact ⟨rfl, by simp [idxs], [], [], rfl, by simp, by simp⟩
  | cons c cs ih =>
    have hc : ∀ x ∈ cs, c.idx < x.idx := (List.pairwise_cons.mp hs).1
    have hs' : Sorted cs := (List.pairwise_cons.mp hs).2
    rcases Nat.lt_trichotomy c.idx i with h | h | h
    · rcases ih hs' with ⟨h1, h2, A, B, rfl, h4, h5⟩ | ⟨t, h1, h2, A, B, rfl, h4, h5⟩
      · left
        refine ⟨?_, ?_, c :: A, B, rfl, ?_, h5⟩
        · rw [kget, List.find?_cons_of_neg (by simp; omega)]; exact h1
        · simp only [idxs, List.map_cons, List.mem_cons, not_or]; exact ⟨by omega, h2⟩
        · simpa [h] using h4
      · right
        refine ⟨t, ?_, ?_, c :: A, B, rfl, ?_, h5⟩
        · rw [kget, List.find?_cons_of_neg (by simp; omega)]; exact h1
        · simp only [idxs, List.map_cons, List.mem_cons]; exact .inr h2
        · simpa [h] using h4
    · right
      refine ⟨c.trie, ?_, ?_, [], cs, ?_, by simp, ?_⟩
      · rw [kget, List.find?_cons_of_pos (by simpa using h)]; rfl
      · simp [idxs, h]
      · rw [← h]; simp
      · rw [← h]; exact hc
    · left
      refine ⟨?_, ?_, [], c :: cs, rfl, by simp, ?_⟩
      · rw [kget, List.find?_eq_none.mpr]; rfl
        intro x hx
        rcases List.mem_cons.mp hx with rfl | hx
        · simp; omega
        · have := hc x hx; simp; omega
      · intro hm
        simp only [idxs, List.mem_map] at hm
        obtain ⟨x, hx, rfl⟩ := hm
        rcases List.mem_cons.mp hx with rfl | hx
        · omega
        · have := hc x hx; omega
      · intro x hx
        rcases List.mem_cons.mp hx with rfl | hx
        · exact h
        · have := hc x hx; omega

theorem kget_none_iff : kget cs i = none ↔ i ∉ idxs cs := by
  simp [kget, idxs, List.find?_eq_none]

theorem kget_mem (h : kget cs i = some t) : .mk i t ∈ cs := by
  simp only [kget, Option.map_eq_some_iff] at h
  obtain ⟨c, h1, rfl⟩ := h
  have h2 := List.find?_some h1
  simp only [decide_eq_true_eq] at h2
  rw [← h2]; simpa using List.mem_of_find?_eq_some h1

theorem mem_kget (hs : Sorted cs) (h : .mk i t ∈ cs) : kget cs i = some t := by
  rcases sorted_split hs i with ⟨_, h2, _⟩ | ⟨t', h1, _, A, B, rfl, hA, hB⟩
  · exact absurd (by simp only [idxs, List.mem_map]; exact ⟨_, h, rfl⟩) h2
  · rcases List.mem_append.mp h with h | h
    · exact absurd (hA _ h) (by simp)
    · rcases List.mem_cons.mp h with h | h
      · cases h; exact h1
      · exact absurd (hB _ h) (by simp)

theorem filter_all {p : Kid → Bool} {l : List Kid} (h : ∀ c ∈ l, p c = true) : l.filter p = l := List.filter_eq_self.mpr h
theorem filter_none {p : Kid → Bool} {l : List Kid} (h : ∀ c ∈ l, p c = false) : l.filter p = [] := by
  rw [List.filter_eq_nil_iff]; intro a ha; simp [h a ha]

theorem absent_ops {A B : List Kid} (hA : ∀ c ∈ A, c.idx < i) (hB : ∀ c ∈ B, i < c.idx) :
    kins (A ++ B) i t = A ++ .mk i t :: B ∧ kpos (A ++ B) i = A.length := by
  have f1 : A.filter (fun c => c.idx < i) = A := filter_all (fun c hc => by simpa using hA c hc)
  have f2 : B.filter (fun c => c.idx < i) = [] := filter_none (fun c hc => by have := hB c hc; simp; omega)
  have f3 : A.filter (fun c => i < c.idx) = [] := filter_none (fun c hc => by have := hA c hc; simp; omega)
  have f4 : B.filter (fun c => i < c.idx) = B := filter_all (fun c hc => by simpa using hB c hc)
  simp [kins, kpos, f1, f2, f3, f4]

theorem present_ops {A B : List Kid} {t0 : Trie} (hA : ∀ c ∈ A, c.idx < i) (hB : ∀ c ∈ B, i < c.idx) :
    kset (A ++ .mk i t0 :: B) i t = A ++ .mk i t :: B ∧ kdel (A ++ .mk i t0 :: B) i = A ++ B ∧ kpos (A ++ .mk i t0 :: B) i = A.length := by
  have f1 : A.filter (fun c => c.idx < i) = A := filter_all (fun c hc => by simpa using hA c hc)
  have f2 : B.filter (fun c => c.idx < i) = [] := filter_none (fun c hc => by have := hB c hc; simp; omega)
  have f3 : A.filter (fun c => c.idx ≠ i) = A := filter_all (fun c hc => by have := hA c hc; simp; omega)
  have f4 : B.filter (fun c => c.idx ≠ i) = B := filter_all (fun c hc => by have := hB c hc; simp; omega)
  have m1 : A.map (fun c => if c.idx = i then Kid.mk i t else c) = A := by
    conv => rhs; rw [← List.map_id A]
    apply List.map_congr_left
    intro c hc; have := hA c hc; rw [if_neg (by omega)]; rfl
  have m2 : B.map (fun c => if c.idx = i then Kid.mk i t else c) = B := by
    conv => rhs; rw [← List.map_id B]
    apply List.map_congr_left
    intro c hc; have := hB c hc; rw [if_neg (by omega)]; rfl
  refine ⟨?_, ?_, ?_⟩
  · simp [kset, m1, m2]
  · rw [kdel, List.filter_append, f3, List.filter_cons_of_neg (by simp), f4]
  · simp [kpos, f1, f2]

theorem mem_kins : ∀ {c : Kid}, c ∈ kins cs i t → c = .mk i t ∨ c ∈ cs := by
  intro c h
  simp only [kins, List.mem_append, List.mem_cons, List.mem_filter] at h
  tauto

theorem mem_kset : ∀ {c : Kid}, c ∈ kset cs i t → (c = .mk i t) ∨ (c ∈ cs ∧ c.idx ≠ i) := by
  intro c h
  simp only [kset, List.mem_map] at h
  obtain ⟨x, hx, rfl⟩ := h
  by_cases hi : x.idx = i
  · simp [hi]
  · simp [hi, hx]

theorem idxs_kset : idxs (kset cs i t) = idxs cs := by
  simp only [idxs, kset, List.map_map]
  apply List.map_congr_left
  intro c _
  simp only [Function.comp]
  split
  · rename_i h; simp [h]
  · rfl

theorem sorted_iff : Sorted cs ↔ (idxs cs).Pairwise (· < ·) := by
  simp [Sorted, idxs, List.pairwise_map]

theorem sorted_kset (hs : Sorted cs) : Sorted (kset cs i t) := by
  rw [sorted_iff, idxs_kset]; exact sorted_iff.mp hs

theorem sorted_kdel (hs : Sorted cs) : Sorted (kdel cs i) := hs.filter _

theorem sorted_kins (hs : Sorted cs) : Sorted (kins cs i t) := by
  rw [kins, Sorted, List.pairwise_append]
  refine ⟨hs.filter _, ?_, ?_⟩
  · rw [List.pairwise_cons]
    exact ⟨fun a ha => by simpa using (List.mem_filter.mp ha).2, hs.filter _⟩
  · intro a ha b hb
    have h1 : a.idx < i := by simpa using (List.mem_filter.mp ha).2
    rcases List.mem_cons.mp hb with rfl | hb
    · exact h1
    · have h2 : i < b.idx := by simpa using (List.mem_filter.mp hb).2
      omega

theorem kget_kset (hs : Sorted cs) (hi : i ∈ idxs cs) : kget (kset cs i t) j = if j = i then some t else kget cs j := by
  by_cases h : j = i
  · subst h
    rw [if_pos rfl]
    apply mem_kget (sorted_kset hs)
    simp only [idxs, List.mem_map] at hi
    obtain ⟨c, hc, hci⟩ := hi
    simp only [kset, List.mem_map]
    exact ⟨c, hc, by simp [hci]⟩
  · rw [if_neg h]
    cases hg : kget cs j with
    | none => rw [kget_none_iff] at hg ⊢; rw [idxs_kset]; exact hg
    | some t' =>
      apply mem_kget (sorted_kset hs)
      simp only [kset, List.mem_map]
      exact ⟨_, kget_mem hg, by simp [h]⟩

theorem kget_kdel (hs : Sorted cs) : kget (kdel cs i) j = if j = i then none else kget cs j := by
  by_cases h : j = i
  · subst h
    rw [if_pos rfl, kget_none_iff]
    simp [idxs, kdel]
  · rw [if_neg h]
    cases hg : kget cs j with
    | none =>
      rw [kget_none_iff] at hg ⊢
      intro hm; apply hg
      simp only [idxs, kdel, List.mem_map, List.mem_filter] at hm ⊢
      obtain ⟨c, ⟨hc, _⟩, hj⟩ := hm
      exact ⟨c, hc, hj⟩
    | some t' =>
      apply mem_kget (sorted_kdel hs)
      simp only [kdel, List.mem_filter]
      exact ⟨kget_mem hg, decide_eq_true h⟩

theorem kget_kins (hs : Sorted cs) : kget (kins cs i t) j = if j = i then some t else kget cs j := by
  by_cases h : j = i
  · subst h
    rw [if_pos rfl]
    apply mem_kget (sorted_kins hs)
    simp [kins]
  · rw [if_neg h]
    cases hg : kget cs j with
    | none =>
      rw [kget_none_iff] at hg ⊢
      intro hm; apply hg
      simp only [idxs, List.mem_map] at hm ⊢
      obtain ⟨c, hc, hj⟩ := hm
      rcases mem_kins hc with rfl | hc
      · simp at hj; omega
      · exact ⟨c, hc, hj⟩
    | some t' =>
      apply mem_kget (sorted_kins hs)
      have := kget_mem hg
      simp only [kins, List.mem_append, List.mem_cons, List.mem_filter]
      rcases Nat.lt_or_gt_of_ne h with h | h
      · left; exact ⟨this, decide_eq_true h⟩
      · right; right; exact ⟨this, decide_eq_true h⟩

/-- Sorted child lists are determined by their lookups. -/
theorem kids_ext : ∀ {cs cs' : List Kid}, Sorted cs → Sorted cs' → (∀ i, kget cs i = kget cs' i) → cs = cs' := by
  intro cs cs' h1 h2 h
  have hp : ∀ c : Kid, c ∈ cs ↔ c ∈ cs' := by
    rintro ⟨i, t⟩
    constructor
    · intro hc; apply kget_mem; rw [← h]; exact mem_kget h1 hc
    · intro hc; apply kget_mem; rw [h]; exact mem_kget h2 hc
  have n1 : cs.Nodup := h1.imp (fun hab => by rintro rfl; omega)
  have n2 : cs'.Nodup := h2.imp (fun hab => by rintro rfl; omega)
  have hperm : cs.Perm cs' := (List.perm_ext_iff_of_nodup n1 n2).mpr hp
  exact hperm.eq_of_pairwise (fun a b _ _ h h' => absurd h (by omega)) h1 h2

theorem kpos_eq (hs : Sorted cs) : ((List.range i).filter (· ∈ idxs cs)).length = kpos cs i := by
  have e : kpos cs i = ((idxs cs).filter (· < i)).length := by
    simp only [kpos, idxs, List.filter_map, List.length_map]; rfl
  rw [e]
  apply List.Perm.length_eq
  rw [List.perm_ext_iff_of_nodup (List.nodup_range.filter _)
    ((sorted_iff.mp hs).imp (fun hab => by omega) |>.filter _)]
  intro a
  simp [and_comm]

end kids

section swap
variable (ix : Bytes → Nat → Nat)

/-- Lookup, with `n` levels left from depth `d` on. -/
def tfind : Nat → Nat → List Kid → Bytes → Option Val
  | 0, _, _, _ => none
  | n + 1, d, cs, key =>
    match kget cs (ix key d) with
    | none => none
    | some (.leaf k v) => if k = key then some v else none
    | some (.node _ cs') => tfind n (d + 1) cs' key

/-- What is left of a child after a removal in it: nothing, a single value, or a shard. -/
def tcollapse (cs : List Kid) (i : Nat) (b : Builder) (cs' : List Kid) : List Kid :=
  match cs' with
  | [] => kdel cs i
  | [.mk _ (.leaf k v)] => kset cs i (.leaf k v)
  | _ => kset cs i (.node b cs')

/-- Set (`some`) or remove (`none`), with `n` levels left from depth `d` on. -/
def tswap : Nat → Nat → Builder → List Kid → Bytes → Option Val → Except Err (Option Val × List Kid)
  | 0, _, _, _, _, _ => .error .tooDeep
  | n + 1, d, b, cs, key, value =>
    match kget cs (ix key d) with
    | none =>
      match value with
      | none => .error .notExist
      | some v => .ok (none, kins cs (ix key d) (.leaf key v))
    | some (.leaf k v0) =>
      if k = key then
        match value with
        | none => .ok (some v0, kdel cs (ix key d))
        | some v => .ok (some v0, kset cs (ix key d) (.leaf key v))
      else
        match value with
        | none => .error .notExist
        | some v =>
          match tswap n (d + 1) b [] key (some v) with
          | .error e => .error e
          | .ok (_, c1) =>
            match tswap n (d + 1) b c1 k (some v0) with
            | .error e => .error e
            | .ok (_, c2) => .ok (none, kset cs (ix key d) (.node b c2))
    | some (.node b' cs') =>
      match tswap n (d + 1) b' cs' key value with
      | .error e => .error e
      | .ok (old, cs'') =>
        match value with
        | some _ => .ok (old, kset cs (ix key d) (.node b' cs''))
        | none => .ok (old, tcollapse cs (ix key d) b' cs'')

/-- Well-formed: indices sorted and below the width, keys non-empty and at the place their indices
say, no more levels than there are indices. `P` says which keys belong here. -/
def WF (size : Nat) : Nat → Nat → (Bytes → Prop) → List Kid → Prop
  | 0, _, _, _ => False
  | n + 1, d, P, cs => Sorted cs ∧ ∀ c ∈ cs, c.idx < size ∧
      match c.trie with
      | .leaf k _ => P k ∧ ix k d = c.idx ∧ k ≠ []
      | .node _ cs' => WF size n (d + 1) (fun k => P k ∧ ix k d = c.idx) cs'

variable {ix} {size : Nat}

theorem wf_nil (n d : Nat) (P : Bytes → Prop) : WF ix size (n + 1) d P [] := by
  simp [WF, Sorted]

theorem WF.sorted {n d : Nat} {P : Bytes → Prop} {cs : List Kid} (h : WF ix size (n + 1) d P cs) : Sorted cs := h.1

theorem WF.leaf {n d : Nat} {P : Bytes → Prop} {cs : List Kid} (h : WF ix size (n + 1) d P cs) {i : Nat} {k : Bytes} {v : Val}
    (hg : kget cs i = some (.leaf k v)) : i < size ∧ P k ∧ ix k d = i ∧ k ≠ [] := h.2 _ (kget_mem hg)

theorem WF.node {n d : Nat} {P : Bytes → Prop} {cs : List Kid} (h : WF ix size (n + 1) d P cs) {i : Nat} {b : Builder} {cs' : List Kid}
    (hg : kget cs i = some (.node b cs')) : i < size ∧ WF ix size n (d + 1) (fun k => P k ∧ ix k d = i) cs' := h.2 _ (kget_mem hg)

theorem WF.mono {n : Nat} : ∀ {d : Nat} {P Q : Bytes → Prop} {cs : List Kid}, WF ix size n d P cs → (∀ k, P k → Q k) → WF ix size n d Q cs := by
  induction n with
  | zero => intro d P Q cs h; exact h.elim
  | succ n ih =>
    intro d P Q cs h hpq
    refine ⟨h.1, fun c hc => ⟨(h.2 c hc).1, ?_⟩⟩
    have := (h.2 c hc).2
    split
    · rename_i k v heq
      rw [heq] at this
      exact ⟨hpq _ this.1, this.2⟩
    · rename_i b cs' heq
      rw [heq] at this
      exact ih this (fun k hk => ⟨hpq _ hk.1, hk.2⟩)

/-- Found keys belong where they are. -/
theorem tfind_some {n : Nat} : ∀ {d : Nat} {P : Bytes → Prop} {cs : List Kid} {key : Bytes} {v : Val},
    WF ix size n d P cs → tfind ix n d cs key = some v → P key ∧ key ≠ [] := by
  induction n with
  | zero => intro d P cs key v h; exact h.elim
  | succ n ih =>
    intro d P cs key v h hf
    rw [tfind] at hf
    split at hf
    · cases hf
    · rename_i k v' hg
      split at hf
      · rename_i hk; subst hk
        exact ⟨(h.leaf hg).2.1, (h.leaf hg).2.2.2⟩
      · cases hf
    · rename_i b cs' hg
      have := ih (h.node hg).2 hf
      exact ⟨this.1.1, this.2⟩

theorem tfind_nil (n d : Nat) (k : Bytes) : tfind ix n d [] k = none := by
  cases n <;> simp [tfind, kget]

end swap

end Unixfs.Hamt
