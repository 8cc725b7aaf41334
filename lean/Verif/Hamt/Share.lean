import Verif.Hamt.Local

/-!
# Which shards an edit of a HAMT leaves as they are

Helper lemmas for C80.

The definitions in this file belong to proofs; they model no code.
-/

namespace Unixfs.Hamt

variable {H : Hash} {lg : Nat}

/-- The sub-shards of a serialised trie below one index. -/
theorem subAt_cons (hp : HP H lg) {n d : Nat} {P : Bytes → Prop} {b : Builder} {cs : List Kid} (hw : WF (hix H lg) (2 ^ lg) n d P cs) {i : Nat} {p : List Nat} {x : Node} :
    SubShardAt (digits (2 ^ lg)) ((Trie.node b cs).toN (2 ^ lg)) (i :: p) x ↔
      ∃ b' cs', kget cs i = some (.node b' cs') ∧ SubShardAt (digits (2 ^ lg)) ((Trie.node b' cs').toN (2 ^ lg)) p x := by
  cases n with
  | zero => exact hw.elim
  | succ n =>
    rw [Trie.toN]
    constructor
    · intro h
      cases h with
      | link hl hn hi h =>
        obtain ⟨i', t, hm, rfl⟩ := kidLinks_mem hl
        have hg := mem_kget hw.sorted hm
        have hi' := (hw.2 _ hm).1
        simp only [Kid.idx_mk] at hi'
        simp only [Link.name, List.length_append, prefix_length hp.valid hi', maxpadlen_digits hp.valid] at hn
        cases t with
        | leaf k v =>
          have := (hw.leaf hg).2.2.2
          simp only [Trie.tkey] at hn
          exact absurd (List.length_eq_zero_iff.mp (by omega)) this
        | node b' cs' =>
          simp only [Link.target] at h
          simp only [Link.name, Trie.tkey, List.append_nil, prefix_hex hp.valid hi', Option.some.injEq] at hi
          subst hi
          exact ⟨b', cs', hg, h⟩
    · rintro ⟨b', cs', hg, h⟩
      have hm := kget_mem hg
      have hi : i < 2 ^ lg := (hw.2 _ hm).1
      refine .link (l := .mk (linkNamePrefix (2 ^ lg) i ++ (Trie.node b' cs').tkey) ((Trie.node b' cs').tsz ((Trie.node b' cs').toN (2 ^ lg))) ((Trie.node b' cs').toN (2 ^ lg))) ?_ ?_ ?_ h
      · rw [kidLinks_eq, List.mem_map]; exact ⟨_, hm, rfl⟩
      · simp [Link.name, Trie.tkey, prefix_length hp.valid hi, maxpadlen_digits hp.valid]
      · simp [Link.name, Trie.tkey, prefix_hex hp.valid hi]

/-- The path `p` from level `d` on is made of the slices of the hash. -/
def On (H : Hash) (lg d : Nat) (k : Bytes) (p : List Nat) : Prop := ∀ j < p.length, p[j]? = some (hix H lg k (d + j))

theorem on_nil (d : Nat) (k : Bytes) : On H lg d k [] := fun j hj => absurd hj (by simp)

theorem on_cons {d i : Nat} {k : Bytes} {p : List Nat} : On H lg d k (i :: p) ↔ i = hix H lg k d ∧ On H lg (d + 1) k p := by
  constructor
  · intro h
    refine ⟨by have := h 0 (by simp); simpa using this, fun j hj => ?_⟩
    have := h (j + 1) (by simp; omega)
    rw [List.getElem?_cons_succ] at this
    rw [this, show d + 1 + j = d + (j + 1) by omega]
  · rintro ⟨rfl, h⟩ j hj
    cases j with
    | zero => rfl
    | succ j => rw [List.getElem?_cons_succ, h j (by simpa using hj), show d + 1 + j = d + (j + 1) by omega]

theorem tswap_nil (n d : Nat) (b : Builder) (k : Bytes) (v : Val) : tswap (hix H lg) (n + 1) d b [] k (some v) = .ok (none, kins [] (hix H lg k d) (.leaf k v)) := rfl

theorem no_sub (hp : HP H lg) {n d : Nat} {P : Bytes → Prop} {b : Builder} {cs : List Kid} (hw : WF (hix H lg) (2 ^ lg) n d P cs) (hno : ∀ i b' cs', kget cs i ≠ some (.node b' cs'))
    {p : List Nat} {x : Node} (h : SubShardAt (digits (2 ^ lg)) ((Trie.node b cs).toN (2 ^ lg)) p x) : p = [] := by
  cases p with
  | nil => rfl
  | cons i p =>
    obtain ⟨b', cs', hg, _⟩ := (subAt_cons hp hw).mp h
    exact absurd hg (hno _ _ _)

/-- A shard made for two names has sub-shards on the paths of both only. -/
theorem two_sub (hp : HP H lg) (b : Builder) (n : Nat) : ∀ (d : Nat) (P : Bytes → Prop) (k k' : Bytes) (v v' : Val) (o o' : Option Val) (c1 c2 : List Kid), P k → P k' → k ≠ [] → k' ≠ [] → k ≠ k' →
    tswap (hix H lg) n d b [] k (some v) = .ok (o, c1) → tswap (hix H lg) n d b c1 k' (some v') = .ok (o', c2) →
    WF (hix H lg) (2 ^ lg) n d P c2 ∧ ∀ p x, SubShardAt (digits (2 ^ lg)) ((Trie.node b c2).toN (2 ^ lg)) p x → On H lg d k p ∧ On H lg d k' p := by
  induction n with
  | zero => intro d P k k' v v' o o' c1 c2 _ _ _ _ _ h; cases h
  | succ n ih =>
    intro d P k k' v v' o o' c1 c2 hP hP' hk hk' hne h1 h2
    rw [tswap_nil] at h1
    cases h1
    have hw0 : WF (hix H lg) (2 ^ lg) (n + 1) d P [] := wf_nil _ _ _
    have hw1 : WF (hix H lg) (2 ^ lg) (n + 1) d P (kins [] (hix H lg k d) (.leaf k v)) := wf_kins hw0 (hix_lt k d) ⟨hP, rfl, hk⟩
    have hw2 : WF (hix H lg) (2 ^ lg) (n + 1) d P c2 := by
      have := tswap_spec hix_lt (n + 1) d P b _ k' (some v') hw1 hP' hk'
      rw [h2] at this
      exact this.1
    refine ⟨hw2, ?_⟩
    intro p x hx
    cases p with
    | nil => exact ⟨on_nil _ _, on_nil _ _⟩
    | cons i p =>
      obtain ⟨b', cs', hg, hx'⟩ := (subAt_cons hp hw2).mp hx
      rw [tswap, kget_kins (by simp [Sorted])] at h2
      by_cases hi : hix H lg k' d = hix H lg k d
      · rw [if_pos hi] at h2
        dsimp only at h2
        rw [if_neg hne] at h2
        split at h2
        · cases h2
        · rename_i c3 e3
          split at h2
          · cases h2
          · rename_i c4 e4
            cases h2
            have hmem : hix H lg k' d ∈ idxs (kins [] (hix H lg k d) (.leaf k v)) := by
              by_contra hc
              have := kget_none_iff.mpr hc
              rw [kget_kins (by simp [Sorted]), if_pos hi] at this
              cases this
            rw [kget_kset (sorted_kins (by simp [Sorted])) hmem] at hg
            by_cases hii : i = hix H lg k' d
            · rw [if_pos hii] at hg
              cases hg
              obtain ⟨_, h4⟩ := ih (d + 1) anyKey k' k v' v _ _ c3 _ trivial trivial hk' hk (Ne.symm hne) e3 e4
              obtain ⟨h5, h6⟩ := h4 p x hx'
              exact ⟨on_cons.mpr ⟨hii.trans hi, h6⟩, on_cons.mpr ⟨hii, h5⟩⟩
            · rw [if_neg hii, kget_kins (by simp [Sorted])] at hg
              split at hg <;> cases hg
      · rw [if_neg hi] at h2
        have hn : kget ([] : List Kid) (hix H lg k' d) = none := rfl
        rw [hn] at h2
        dsimp only at h2
        cases h2
        rw [kget_kins (sorted_kins (by simp [Sorted]))] at hg
        split at hg
        · cases hg
        · rw [kget_kins (by simp [Sorted])] at hg
          split at hg <;> cases hg

/-- An edit leaves the shards off the path of the name as they are. -/
theorem tswap_off (hp : HP H lg) (n : Nat) : ∀ (d : Nat) (P : Bytes → Prop) (b b1 b2 : Builder) (cs cs' : List Kid) (k : Bytes) (v old : Option Val),
    WF (hix H lg) (2 ^ lg) n d P cs → P k → k ≠ [] → tswap (hix H lg) n d b cs k v = .ok (old, cs') → ∀ p x, ¬ On H lg d k p →
    (SubShardAt (digits (2 ^ lg)) ((Trie.node b1 cs).toN (2 ^ lg)) p x ↔ SubShardAt (digits (2 ^ lg)) ((Trie.node b2 cs').toN (2 ^ lg)) p x) := by
  induction n with
  | zero => intro d P b b1 b2 cs cs' k v old hw; exact hw.elim
  | succ n ih =>
    intro d P b b1 b2 cs cs' k v old hw hP hk h p x hoff
    have hw' : WF (hix H lg) (2 ^ lg) (n + 1) d P cs' := by
      have := tswap_spec hix_lt (n + 1) d P b cs k v hw hP hk
      rw [h] at this
      exact this.1
    have hs := hw.sorted
    cases p with
    | nil => exact absurd (on_nil d k) hoff
    | cons i p =>
      rw [subAt_cons hp hw, subAt_cons hp hw']
      -- it is enough to compare the children
      have hother : ∀ {t : Trie}, kget cs (hix H lg k d) = some t → hix H lg k d ∈ idxs cs := by
        intro t ht
        by_contra hc
        rw [kget_none_iff.mpr hc] at ht; cases ht
      by_cases hi : i = hix H lg k d
      · have hoff' : ¬ On H lg (d + 1) k p := fun ho => hoff (on_cons.mpr ⟨hi, ho⟩)
        have hp0 : p ≠ [] := fun e => hoff' (by rw [e]; exact on_nil _ _)
        subst hi
        rw [tswap.eq_def] at h
        dsimp only at h
        split at h
        · rename_i hg
          split at h
          · cases h
          · cases h
            rw [kget_kins hs, if_pos rfl, hg]
            constructor <;> rintro ⟨_, _, h, _⟩ <;> cases h
        · rename_i k0 v0 hg
          split at h
          · split at h
            · cases h
              rw [kget_kdel hs, if_pos rfl, hg]
              constructor <;> rintro ⟨_, _, h, _⟩ <;> cases h
            · cases h
              rw [kget_kset hs (hother hg), if_pos rfl, hg]
              constructor <;> rintro ⟨_, _, h, _⟩ <;> cases h
          · rename_i hne
            split at h
            · cases h
            · rename_i v
              split at h
              · cases h
              · rename_i c1 e1
                split at h
                · cases h
                · rename_i c2 e2
                  cases h
                  rw [kget_kset hs (hother hg), if_pos rfl, hg]
                  obtain ⟨_, hc2⟩ := two_sub hp b n (d + 1) anyKey k k0 v v0 _ _ c1 c2 trivial trivial hk (hw.leaf hg).2.2.2 (Ne.symm hne) e1 e2
                  constructor
                  · rintro ⟨_, _, h, _⟩; cases h
                  · rintro ⟨b', cs', h, hx⟩
                    cases h
                    exact absurd (hc2 p x hx).1 hoff'
        · rename_i b' cs1 hg
          have hw1 := (hw.node hg).2
          split at h
          · cases h
          · rename_i cs2 e2
            have hih := fun b1 b2 => ih (d + 1) _ b' b1 b2 cs1 cs2 k v _ hw1 ⟨hP, rfl⟩ hk e2 p x hoff'
            have hw2 := tswap_spec hix_lt n (d + 1) _ b' cs1 k v hw1 ⟨hP, rfl⟩ hk
            rw [e2] at hw2
            replace hw2 := hw2.1
            split at h
            · cases h
              rw [kget_kset hs (hother hg), if_pos rfl, hg]
              constructor
              · rintro ⟨_, _, h, hx⟩; cases h; exact ⟨_, _, rfl, (hih b' b').mp hx⟩
              · rintro ⟨_, _, h, hx⟩; cases h; exact ⟨_, _, rfl, (hih b' b').mpr hx⟩
            · cases h
              rcases tcollapse_cases cs (hix H lg k d) b' cs2 with ⟨rfl, he⟩ | ⟨j, k1, v1, rfl, he⟩ | ⟨he, _⟩
              · rw [he, kget_kdel hs, if_pos rfl, hg]
                constructor
                · rintro ⟨_, _, h, hx⟩; cases h
                  exact absurd (no_sub hp hw2 (by intro i b' cs' h; cases h) ((hih b' b').mp hx)) hp0
                · rintro ⟨_, _, h, _⟩; cases h
              · rw [he, kget_kset hs (hother hg), if_pos rfl, hg]
                constructor
                · rintro ⟨_, _, h, hx⟩; cases h
                  refine absurd (no_sub hp hw2 ?_ ((hih b' b').mp hx)) hp0
                  intro i b' cs' h
                  have := kget_mem h
                  simp at this
                · rintro ⟨_, _, h, _⟩; cases h
              · rw [he, kget_kset hs (hother hg), if_pos rfl, hg]
                constructor
                · rintro ⟨_, _, h, hx⟩; cases h; exact ⟨_, _, rfl, (hih b' b').mp hx⟩
                · rintro ⟨_, _, h, hx⟩; cases h; exact ⟨_, _, rfl, (hih b' b').mpr hx⟩
      · have : kget cs' i = kget cs i := by
          rw [tswap.eq_def] at h
          dsimp only at h
          split at h
          · split at h
            · cases h
            · cases h; rw [kget_kins hs, if_neg hi]
          · rename_i hg
            split at h
            · split at h
              · cases h; rw [kget_kdel hs, if_neg hi]
              · cases h; rw [kget_kset hs (hother hg), if_neg hi]
            · split at h
              · cases h
              · split at h
                · cases h
                · split at h
                  · cases h
                  · cases h; rw [kget_kset hs (hother hg), if_neg hi]
          · rename_i b' cs1 hg
            split at h
            · cases h
            · rename_i cs2 e2
              split at h
              · cases h; rw [kget_kset hs (hother hg), if_neg hi]
              · cases h
                rcases tcollapse_cases cs (hix H lg k d) b' cs2 with ⟨_, he⟩ | ⟨j, k1, v1, _, he⟩ | ⟨he, _⟩
                · rw [he, kget_kdel hs, if_neg hi]
                · rw [he, kget_kset hs (hother hg), if_neg hi]
                · rw [he, kget_kset hs (hother hg), if_neg hi]
        rw [this]

/-- A history leaves the shards off the paths of the names it stores or removes as they are. -/
theorem exec_off (hp : HP H lg) (net : Net) (ref : Nat → Bool) : ∀ (ops : List Op) {b : Builder} {cs : List Kid} {c : Cfg} {M : NMap},
    Inv H lg b cs c M → NoEmptyName ops →
    ∃ b' cs' M', Inv H lg b' cs' (execAll H net ref ops c) M' ∧ ∀ p x, p ≠ [] → (∀ op ∈ ops, ∀ k, op.target = some k → ¬ On H lg 0 k p) →
      (SubShardAt (digits (2 ^ lg)) ((Trie.node b cs).toN (2 ^ lg)) p x ↔ SubShardAt (digits (2 ^ lg)) ((Trie.node b' cs').toN (2 ^ lg)) p x)
  | [], b, cs, c, M, hi, _ => ⟨b, cs, M, hi, fun _ _ _ _ => Iff.rfl⟩
  | op :: ops, b, cs, c, M, hi, hn => by
    obtain ⟨b', cs', M', h1, h2, _⟩ := exec_spec hp net ref hi op (hn op (by simp))
    obtain ⟨b'', cs'', M'', h3, h4⟩ := exec_off hp net ref ops h1 (fun o ho => hn o (by simp [ho]))
    refine ⟨b'', cs'', M'', h3, ?_⟩
    intro p x hp0 hoff
    rw [← h4 p x hp0 (fun o ho => hoff o (by simp [ho]))]
    cases h2 with
    | same => rfl
    | swap ht hk h => exact tswap_off hp (levels lg) 0 anyKey b b b cs cs' _ _ _ hi.holds.wf trivial hk h p x (hoff op (by simp) _ ht)
    | build bd =>
      cases p with
      | nil => exact absurd rfl hp0
      | cons i p => rw [subAt_cons hp hi.holds.wf, subAt_cons hp hi.holds.wf]

theorem on_iff (hp : HP H lg) {k : Bytes} {p : List Nat} (hl : p.length ≤ levels lg) : On H lg 0 k p ↔ HashPath H lg k p := by
  refine ⟨fun h => hashPath_of hp hl (by simpa [On] using h), fun h j hj => ?_⟩
  rw [HashPath] at h
  rw [h, slices_get lg _ _ _ hj, Nat.zero_add, hix_slice hp k (by omega)]

theorem sub_length (hp : HP H lg) (n : Nat) : ∀ (d : Nat) (P : Bytes → Prop) (b : Builder) (cs : List Kid) (p : List Nat) (x : Node), WF (hix H lg) (2 ^ lg) n d P cs →
    SubShardAt (digits (2 ^ lg)) ((Trie.node b cs).toN (2 ^ lg)) p x → p.length < n := by
  intro d P b cs p x hw hx
  obtain ⟨m, b', cs', h1, _, h2, _⟩ := subShardAt_wf hp b n d P b cs p x hw hx
  cases m with
  | zero => exact h2.elim
  | succ m => omega

theorem sub_unique (hp : HP H lg) : ∀ (n d : Nat) (P : Bytes → Prop) (b : Builder) (cs : List Kid) (p : List Nat) (x y : Node), WF (hix H lg) (2 ^ lg) n d P cs →
    SubShardAt (digits (2 ^ lg)) ((Trie.node b cs).toN (2 ^ lg)) p x → SubShardAt (digits (2 ^ lg)) ((Trie.node b cs).toN (2 ^ lg)) p y → x = y
  | 0, _, _, _, _, _, _, _, hw, _, _ => hw.elim
  | n + 1, d, P, b, cs, [], x, y, hw, hx, hy => by
    generalize (Trie.node b cs).toN (2 ^ lg) = nd at hx hy
    cases hx; cases hy; rfl
  | n + 1, d, P, b, cs, i :: p, x, y, hw, hx, hy => by
    obtain ⟨b1, c1, h1, hx⟩ := (subAt_cons hp hw).mp hx
    obtain ⟨b2, c2, h2, hy⟩ := (subAt_cons hp hw).mp hy
    rw [h1] at h2; cases h2
    exact sub_unique hp n (d + 1) _ b1 c1 p x y (hw.node h1).2 hx hy

theorem sub_at (hp : HP H lg) : ∀ (n d : Nat) (P : Bytes → Prop) (b : Builder) (cs : List Kid) (x : Node), WF (hix H lg) (2 ^ lg) n d P cs →
    SubShard (digits (2 ^ lg)) ((Trie.node b cs).toN (2 ^ lg)) x → ∃ p, SubShardAt (digits (2 ^ lg)) ((Trie.node b cs).toN (2 ^ lg)) p x
  | 0, _, _, _, _, _, hw, _ => hw.elim
  | n + 1, d, P, b, cs, x, hw, hx => by
    rw [Trie.toN] at hx
    cases hx with
    | self => exact ⟨[], by rw [Trie.toN]; exact .self _⟩
    | link hl hn h =>
      obtain ⟨i, t, hm, rfl⟩ := kidLinks_mem hl
      have hg := mem_kget hw.sorted hm
      have hi := (hw.2 _ hm).1
      simp only [Kid.idx_mk] at hi
      simp only [Link.name, List.length_append, prefix_length hp.valid hi, maxpadlen_digits hp.valid] at hn
      cases t with
      | leaf k v =>
        have := (hw.leaf hg).2.2.2
        simp only [Trie.tkey] at hn
        exact absurd (List.length_eq_zero_iff.mp (by omega)) this
      | node b' cs' =>
        obtain ⟨p, hp'⟩ := sub_at hp n (d + 1) _ b' cs' x (hw.node hg).2 h
        exact ⟨i :: p, (subAt_cons hp hw).mpr ⟨b', cs', hg, hp'⟩⟩

theorem subShard_of_at {dg : Nat} {nd x : Node} {p : List Nat} (h : SubShardAt dg nd p x) : SubShard dg nd x := by
  induction h with
  | self nd => exact .self nd
  | link hl hn _ _ ih => exact .link hl hn ih

end Unixfs.Hamt
