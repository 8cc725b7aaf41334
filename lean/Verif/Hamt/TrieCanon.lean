import Verif.Hamt.TrieSwap

/-! # Canonical tries: the shape is a function of the entries

The definitions in this file belong to proofs; they model no code.
-/

namespace Unixfs.Hamt

variable {ix : Bytes → Nat → Nat} {size : Nat}

/-- Every sub-shard has the builder `b` and is neither empty nor a single value. -/
def Canon (b : Builder) : Nat → List Kid → Prop
  | 0, _ => True
  | n + 1, cs => ∀ i b' cs', kget cs i = some (.node b' cs') → b' = b ∧ NC cs' ∧ Canon b n cs'

theorem nc_of_length {cs : List Kid} (h : 2 ≤ cs.length) : NC cs := by
  constructor
  · rintro rfl; simp at h
  · rintro j k v rfl; simp at h

theorem nc_of_node {cs : List Kid} {i : Nat} {b : Builder} {cs' : List Kid} (h : kget cs i = some (.node b cs')) : NC cs := by
  constructor
  · rintro rfl; simp [kget] at h
  · rintro j k v rfl
    have := kget_mem h
    simp at this

theorem length_kins {cs : List Kid} {i : Nat} {t : Trie} (hs : Sorted cs) (h : kget cs i = none) : (kins cs i t).length = cs.length + 1 := by
  rcases sorted_split hs i with ⟨_, _, A, B, rfl, hA, hB⟩ | ⟨t', h', _⟩
  · rw [(absent_ops hA hB).1]; simp; omega
  · rw [h] at h'; cases h'

theorem kset_eq_nil {cs : List Kid} {i : Nat} {t : Trie} : kset cs i t = [] ↔ cs = [] := by simp [kset]

theorem canon_kset {b : Builder} {n i : Nat} {cs : List Kid} {t : Trie} (hs : Sorted cs) (h : Canon b (n + 1) cs)
    (ht : ∀ b' cs', t = .node b' cs' → b' = b ∧ NC cs' ∧ Canon b n cs') : Canon b (n + 1) (kset cs i t) := by
  intro j b' cs' hj
  by_cases hi : i ∈ idxs cs
  · rw [kget_kset hs hi] at hj
    split at hj
    · cases hj; exact ht _ _ rfl
    · exact h _ _ _ hj
  · have : kset cs i t = cs := by
      conv => rhs; rw [← List.map_id cs]
      apply List.map_congr_left
      intro c hc
      rw [if_neg]; rfl
      rintro rfl; exact hi (List.mem_map_of_mem hc)
    rw [this] at hj; exact h _ _ _ hj

theorem canon_kins {b : Builder} {n i : Nat} {cs : List Kid} {k : Bytes} {v : Val} (hs : Sorted cs) (h : Canon b (n + 1) cs) :
    Canon b (n + 1) (kins cs i (.leaf k v)) := by
  intro j b' cs' hj
  rw [kget_kins hs] at hj
  split at hj
  · cases hj
  · exact h _ _ _ hj

theorem canon_kdel {b : Builder} {n i : Nat} {cs : List Kid} (hs : Sorted cs) (h : Canon b (n + 1) cs) : Canon b (n + 1) (kdel cs i) := by
  intro j b' cs' hj
  rw [kget_kdel hs] at hj
  split at hj
  · cases hj
  · exact h _ _ _ hj

theorem canon_nil (b : Builder) (n : Nat) : Canon b n [] := by
  cases n with
  | zero => trivial
  | succ n => intro i b' cs' h; simp [kget] at h

theorem canon_tswap (hix : ∀ k d, ix k d < size) (b : Builder) (n : Nat) : ∀ (d : Nat) (P : Bytes → Prop) (cs : List Kid) (key : Bytes) (value old : Option Val) (cs' : List Kid),
    WF ix size n d P cs → P key → key ≠ [] → Canon b n cs → tswap ix n d b cs key value = .ok (old, cs') →
    Canon b n cs' ∧ (value ≠ none → (NC cs ∨ cs ≠ [] ∧ old = none) → NC cs') ∧ (value ≠ none → cs' ≠ []) := by
  induction n with
  | zero => intro d P cs key value old cs' h; exact h.elim
  | succ n ih =>
    intro d P cs key value old cs' h hP hk hc hr
    rw [tswap.eq_def] at hr; dsimp only at hr
    cases hg : kget cs (ix key d) with
    | none =>
      rw [hg] at hr
      cases value with
      | none => cases hr
      | some v =>
        cases hr
        have hl := length_kins (t := .leaf key v) h.1 hg
        refine ⟨canon_kins h.1 hc, fun _ hn => nc_of_length ?_, fun _ he => ?_⟩
        · have : cs ≠ [] := hn.elim (·.1) (·.1)
          have := List.length_pos_iff.mpr this
          omega
        · rw [he] at hl; simp at hl
    | some t =>
      rw [hg] at hr
      have hne : cs ≠ [] := by rintro rfl; simp [kget] at hg
      have hgn : ix key d ∈ idxs cs := by by_contra h; rw [kget_none_iff.mpr h] at hg; cases hg
      cases t with
      | leaf k0 v0 =>
        obtain ⟨_, hP0, hi0, hk0⟩ := h.leaf hg
        dsimp only at hr
        by_cases hkk : k0 = key
        · rw [if_pos hkk] at hr
          cases value with
          | none => cases hr; exact ⟨canon_kdel h.1 hc, by simp, by simp⟩
          | some v =>
            cases hr
            refine ⟨canon_kset h.1 hc (by simp), fun _ hn => ?_, fun _ => by rw [Ne, kset_eq_nil]; exact hne⟩
            rcases hn with hn | ⟨_, hn⟩
            · apply nc_of_length
              rw [kset, List.length_map]
              match cs, hn, hg with
              | [.mk j (.leaf k v)], hn, _ => exact absurd rfl (hn.2 j k v)
              | [.mk j (.node _ _)], _, hg =>
                simp only [kget, List.find?] at hg
                split at hg <;> simp at hg
              | _ :: _ :: _, _, _ => simp
            · cases hn
        · rw [if_neg hkk] at hr
          cases value with
          | none => cases hr
          | some v =>
            dsimp only at hr
            cases n with
            | zero => simp only [tswap] at hr; cases hr
            | succ n =>
              have s1 := tswap_spec hix (n + 1) (d + 1) (fun k => P k ∧ ix k d = ix key d) b [] key (some v) (wf_nil n _ _) ⟨hP, rfl⟩ hk
              cases h1 : tswap ix (n + 1) (d + 1) b [] key (some v) with
              | error e => simp only [h1] at hr; cases hr
              | ok p1 =>
                obtain ⟨o1, c1⟩ := p1
                rw [h1] at s1
                have q1 := ih (d + 1) (fun k => P k ∧ ix k d = ix key d) [] key (some v) o1 c1 (wf_nil n _ _) ⟨hP, rfl⟩ hk (canon_nil b _) h1
                have s2 := tswap_spec hix (n + 1) (d + 1) (fun k => P k ∧ ix k d = ix key d) b c1 k0 (some v0) s1.1 ⟨hP0, hi0⟩ hk0
                cases h2 : tswap ix (n + 1) (d + 1) b c1 k0 (some v0) with
                | error e => simp only [h1, h2] at hr; cases hr
                | ok p2 =>
                  obtain ⟨o2, c2⟩ := p2
                  rw [h2] at s2
                  simp only [h1, h2] at hr
                  cases hr
                  have q2 := ih (d + 1) (fun k => P k ∧ ix k d = ix key d) c1 k0 (some v0) o2 c2 s1.1 ⟨hP0, hi0⟩ hk0 q1.1 h2
                  have ho2 : o2 = none := by
                    rw [s2.2.old_eq, s1.2.new_eq, if_neg hkk, tfind_nil]
                  have hnc := q2.2.1 (by simp) (.inr ⟨q1.2.2 (by simp), ho2⟩)
                  refine ⟨canon_kset h.1 hc (by rintro _ _ h; cases h; exact ⟨rfl, hnc, q2.1⟩), fun _ _ => ?_,
                    fun _ => by rw [Ne, kset_eq_nil]; exact hne⟩
                  exact nc_of_node (i := ix key d) (b := b) (cs' := c2) (by rw [kget_kset h.1 hgn]; simp)
      | node b' c' =>
        obtain ⟨_, hw⟩ := h.node hg
        obtain ⟨rfl, hnc, hcc⟩ := hc _ _ _ hg
        dsimp only at hr
        cases hr1 : tswap ix n (d + 1) b' c' key value with
        | error e => simp only [hr1] at hr; cases hr
        | ok p =>
          obtain ⟨old', cs''⟩ := p
          have q := ih (d + 1) (fun k => P k ∧ ix k d = ix key d) c' key value old' cs'' hw ⟨hP, rfl⟩ hk hcc hr1
          simp only [hr1] at hr
          cases value with
          | some v =>
            cases hr
            refine ⟨canon_kset h.1 hc (by rintro _ _ h; cases h; exact ⟨rfl, q.2.1 (by simp) (.inl hnc), q.1⟩), fun _ _ => ?_,
              fun _ => by rw [Ne, kset_eq_nil]; exact hne⟩
            exact nc_of_node (i := ix key d) (b := b') (cs' := cs'') (by rw [kget_kset h.1 hgn]; simp)
          | none =>
            cases hr
            refine ⟨?_, by simp, by simp⟩
            rcases tcollapse_cases cs (ix key d) b' cs'' with ⟨rfl, hcl⟩ | ⟨j, k, v, rfl, hcl⟩ | ⟨hcl, hn⟩ <;> rw [hcl]
            · exact canon_kdel h.1 hc
            · exact canon_kset h.1 hc (by simp)
            · exact canon_kset h.1 hc (by rintro _ _ h; cases h; exact ⟨rfl, hn, q.1⟩)

/-- A canonical sub-shard holds at least two keys. -/
theorem two_keys (b : Builder) (n : Nat) : ∀ (d : Nat) (P : Bytes → Prop) (cs : List Kid), WF ix size n d P cs → Canon b n cs → NC cs →
    ∃ k k', k ≠ k' ∧ tfind ix n d cs k ≠ none ∧ tfind ix n d cs k' ≠ none := by
  induction n with
  | zero => intro d P cs h; exact h.elim
  | succ n ih =>
    intro d P cs h hc hn
    have one : ∀ i t, kget cs i = some t → ∃ k, ix k d = i ∧ tfind ix (n + 1) d cs k ≠ none := by
      intro i t hg
      cases t with
      | leaf k v =>
        obtain ⟨_, _, hi, _⟩ := h.leaf hg
        exact ⟨k, hi, by rw [tfind_succ, hi, hg]; simp [tsub]⟩
      | node b' cs' =>
        obtain ⟨_, hw⟩ := h.node hg
        obtain ⟨rfl, hnc, hcc⟩ := hc _ _ _ hg
        obtain ⟨k, _, _, hk, _⟩ := ih _ _ _ hw hcc hnc
        obtain ⟨v, hv⟩ := Option.ne_none_iff_exists'.mp hk
        have hi := (tfind_some hw hv).1.2
        exact ⟨k, hi, by rw [tfind_succ, hi, hg]; exact hk⟩
    match cs, h, hc, hn, one with
    | [], _, _, hn, _ => exact absurd rfl hn.1
    | [.mk j (.leaf k v)], _, _, hn, _ => exact absurd rfl (hn.2 j k v)
    | [.mk j (.node b' cs')], h, hc, _, _ =>
      have hg : kget [.mk j (.node b' cs')] j = some (.node b' cs') := by simp [kget]
      obtain ⟨_, hw⟩ := h.node hg
      obtain ⟨rfl, hnc, hcc⟩ := hc _ _ _ hg
      obtain ⟨k, k', hne, hk, hk'⟩ := ih _ _ _ hw hcc hnc
      refine ⟨k, k', hne, ?_, ?_⟩
      · obtain ⟨v, hv⟩ := Option.ne_none_iff_exists'.mp hk
        rw [tfind_succ, (tfind_some hw hv).1.2, hg]; exact hk
      · obtain ⟨v, hv⟩ := Option.ne_none_iff_exists'.mp hk'
        rw [tfind_succ, (tfind_some hw hv).1.2, hg]; exact hk'
    | c :: c' :: r, h, _, _, one =>
      obtain ⟨k, hk, hf⟩ := one c.idx c.trie (mem_kget h.1 (by simp))
      obtain ⟨k', hk', hf'⟩ := one c'.idx c'.trie (mem_kget h.1 (by simp))
      have hlt : c.idx < c'.idx := (List.pairwise_cons.mp h.1).1 c' (by simp)
      exact ⟨k, k', by rintro rfl; omega, hf, hf'⟩

/-- The shape of a canonical trie is a function of its entries. -/
theorem canon_unique (b : Builder) (n : Nat) : ∀ (d : Nat) (P : Bytes → Prop) (c1 c2 : List Kid), WF ix size n d P c1 → WF ix size n d P c2 →
    Canon b n c1 → Canon b n c2 → (∀ k, P k → tfind ix n d c1 k = tfind ix n d c2 k) → c1 = c2 := by
  induction n with
  | zero => intro d P c1 c2 h; exact h.elim
  | succ n ih =>
    intro d P c1 c2 h1 h2 hc1 hc2 hf
    -- one direction, used twice
    have key : ∀ (c1 c2 : List Kid), WF ix size (n + 1) d P c1 → WF ix size (n + 1) d P c2 → Canon b (n + 1) c1 → Canon b (n + 1) c2 →
        (∀ k, P k → tfind ix (n + 1) d c1 k = tfind ix (n + 1) d c2 k) → ∀ i t, kget c1 i = some t → kget c2 i = some t := by
      intro c1 c2 h1 h2 hc1 hc2 hf i t hg
      cases t with
      | leaf k v =>
        obtain ⟨_, hPk, hi, _⟩ := h1.leaf hg
        have f1 : tfind ix (n + 1) d c1 k = some v := by rw [tfind_succ, hi, hg]; simp [tsub]
        have f2 := hf k hPk
        rw [f1, tfind_succ, hi] at f2
        cases hg2 : kget c2 i with
        | none => rw [hg2] at f2; cases f2
        | some t2 =>
          rw [hg2] at f2
          cases t2 with
          | leaf k2 v2 =>
            simp only [Option.bind_some, tsub] at f2
            by_cases e : k2 = k
            · rw [if_pos e] at f2; cases f2; rw [e]
            · rw [if_neg e] at f2; cases f2
          | node b2 cs2 =>
            exfalso
            obtain ⟨_, hw⟩ := h2.node hg2
            obtain ⟨rfl, hnc, hcc⟩ := hc2 _ _ _ hg2
            obtain ⟨k1, k2, hne, hk1, hk2⟩ := two_keys b2 n _ _ _ hw hcc hnc
            have : ∀ k', tfind ix n (d + 1) cs2 k' ≠ none → k' = k := by
              intro k' hk'
              obtain ⟨v', hv'⟩ := Option.ne_none_iff_exists'.mp hk'
              obtain ⟨⟨hp, hi'⟩, _⟩ := tfind_some hw hv'
              have := hf k' hp
              rw [tfind_succ, tfind_succ, hi', hg, hg2] at this
              simp only [Option.bind_some, tsub] at this
              rw [hv'] at this
              by_contra e
              rw [if_neg (fun h => e h.symm)] at this
              cases this
            exact hne ((this k1 hk1).trans (this k2 hk2).symm)
      | node b1 cs1 =>
        obtain ⟨_, hw⟩ := h1.node hg
        obtain ⟨rfl, hnc, hcc⟩ := hc1 _ _ _ hg
        obtain ⟨k1, k2, hne, hk1, hk2⟩ := two_keys b1 n _ _ _ hw hcc hnc
        have loc : ∀ k', tfind ix n (d + 1) cs1 k' ≠ none → P k' ∧ ix k' d = i := by
          intro k' hk'
          obtain ⟨v', hv'⟩ := Option.ne_none_iff_exists'.mp hk'
          exact (tfind_some hw hv').1
        have f2 : ∀ k', tfind ix n (d + 1) cs1 k' ≠ none → ((kget c2 i).bind (tsub ix n (d + 1) k')) ≠ none := by
          intro k' hk'
          have := hf k' (loc k' hk').1
          rw [tfind_succ, tfind_succ, (loc k' hk').2, hg] at this
          rw [← this]; exact hk'
        cases hg2 : kget c2 i with
        | none => rw [hg2] at f2; exact absurd rfl (f2 k1 hk1)
        | some t2 =>
          rw [hg2] at f2
          cases t2 with
          | leaf k v =>
            exfalso
            have : ∀ k', tfind ix n (d + 1) cs1 k' ≠ none → k = k' := by
              intro k' hk'
              have := f2 k' hk'
              by_contra e
              exact this (by simp [tsub, e])
            exact hne ((this k1 hk1).symm.trans (this k2 hk2))
          | node b2 cs2 =>
            obtain ⟨_, hw2⟩ := h2.node hg2
            obtain ⟨rfl, hnc2, hcc2⟩ := hc2 _ _ _ hg2
            have : cs1 = cs2 := by
              apply ih (d + 1) (fun k => P k ∧ ix k d = i) cs1 cs2 hw hw2 hcc hcc2
              rintro k' ⟨hp, hi'⟩
              have := hf k' hp
              rw [tfind_succ, tfind_succ, hi', hg, hg2] at this
              exact this
            rw [this]
    apply kids_ext h1.1 h2.1
    intro i
    cases hg : kget c1 i with
    | some t => exact (key c1 c2 h1 h2 hc1 hc2 hf i t hg).symm
    | none =>
      cases hg2 : kget c2 i with
      | none => rfl
      | some t =>
        have := key c2 c1 h2 h1 hc2 hc1 (fun k hk => (hf k hk).symm) i t hg2
        rw [hg] at this; cases this

end Unixfs.Hamt
