import Verif.Hamt.Rep

/-!
# The operations of a `Shard` simulate those of the trie it represents

The definitions in this file belong to proofs; they model no code.
-/

namespace Unixfs.Hamt

/-- The index of `key` at depth `d` in a HAMT of width `2 ^ lg`: digit `d` of its hash, read as a
number in base `2 ^ lg` from the most significant end. -/
def hix (H : Hash) (lg : Nat) (key : Bytes) (d : Nat) : Nat := beNat (H key) / 2 ^ (64 - d * lg - lg) % 2 ^ lg

/-- The number of levels. -/
def levels (lg : Nat) : Nat := 64 / lg

/-- The value part of a link. -/
def lval (l : Link) : Val := (l.tsize, l.target)

/-- Widths and hash functions for which the model is proved. -/
structure HP (H : Hash) (lg : Nat) : Prop where
  hlen : ∀ k, (H k).length = 8
  lo : 3 ≤ lg
  hi : lg ≤ 10

variable {H : Hash} {lg : Nat} {A : Node → Prop}

theorem HP.valid (h : HP H lg) : ValidSize (2 ^ lg) := ⟨lg, h.lo, h.hi, rfl⟩

theorem hix_lt (k : Bytes) (d : Nat) : hix H lg k d < 2 ^ lg := Nat.mod_lt _ (by positivity)

theorem lg_eq (h : HP H lg) {s : Shard} (hs : s.size = 2 ^ lg) : s.lg = lg := by
  rw [Shard.lg, hs]; exact lg_valid h.hi

theorem next_ok (h : HP H lg) (key : Bytes) {n d : Nat} (hn : n + 1 + d = levels lg) :
    nextBits (H key) (d * lg) lg = .ok (hix H lg key d, (d + 1) * lg) := by
  have h1 : (d + 1) * lg ≤ 64 := by
    have h2 : d + 1 ≤ levels lg := by omega
    calc (d + 1) * lg ≤ levels lg * lg := Nat.mul_le_mul_right _ h2
      _ ≤ 64 := Nat.div_mul_le_self _ _
  have h3 : (d + 1) * lg = d * lg + lg := by ring
  have h4 := h.lo
  rw [nextBits_ok _ _ _ (by omega) (by rw [h.hlen]; omega), h.hlen, h3]
  rfl

theorem next_deep (h : HP H lg) (key : Bytes) {d : Nat} (hn : d = levels lg) : nextBits (H key) (d * lg) lg = .error .tooDeep := by
  have h1 : 64 < (d + 1) * lg := by
    have := Nat.lt_mul_div_succ 64 (show 0 < lg by have := h.lo; omega)
    rw [hn, levels, Nat.mul_comm]; exact this
  have h3 : (d + 1) * lg = d * lg + lg := by ring
  rw [nextBits, if_pos (by rw [h.hlen]; omega)]

theorem levels_pos (h : HP H lg) : 1 ≤ levels lg := by
  have := h.lo; have := h.hi
  rw [levels, Nat.le_div_iff_mul_le (by omega)]; omega

/-- The children of well-formed shards: their keys and indices. -/
theorem wf_kid {n d i : Nat} {P : Bytes → Prop} {cs : List Kid} {t : Trie} (h : WF (hix H lg) (2 ^ lg) (n + 1) d P cs) (hg : kget cs i = some t) :
    (∀ k v, t = .leaf k v → k ≠ []) ∧ (∀ b' cs', t = .node b' cs' → ∀ j ∈ idxs cs', j < 2 ^ lg) := by
  constructor
  · rintro k v rfl; exact (h.leaf hg).2.2.2
  · rintro b' cs' rfl j hj
    obtain ⟨_, hw⟩ := h.node hg
    cases n with
    | zero => exact hw.elim
    | succ n =>
      simp only [idxs, List.mem_map] at hj
      obtain ⟨c, hc, rfl⟩ := hj
      exact (hw.2 c hc).1

theorem wf_idx {n d : Nat} {P : Bytes → Prop} {cs : List Kid} (hw : WF (hix H lg) (2 ^ lg) n d P cs) : ∀ j ∈ idxs cs, j < 2 ^ lg := by
  cases n with
  | zero => exact hw.elim
  | succ n =>
    intro j hj
    simp only [idxs, List.mem_map] at hj
    obtain ⟨c, hc, rfl⟩ := hj
    exact (hw.2 c hc).1

theorem rep_new (h : HP H lg) (b : Option Builder) : RepS (2 ^ lg) A (.mk (2 ^ lg) (bfNew (2 ^ lg)) [] b [] none) (.node (pbBuilder b) []) := by
  rw [repS_node]
  exact ⟨rfl, rfl, rfl, rfl, isBf_new (valid_dvd h.valid), trivial⟩

/-- What an operation on a represented shard may do, given what the trie does. -/
inductive Sim (lg : Nat) (A : Node → Prop) (net : Net) (b : Builder) (cs : List Kid) (key : Bytes) (t : Nat) :
    Except Err (Option Val × List Kid) → Except Err (Option Link) × Shard × Nat → Prop
  | ok {old : Option Val} {cs' : List Kid} {lo : Option Link} {s' : Shard} {t' : Nat} (hlo : lo.map lval = old)
      (hnm : ∀ l, lo = some l → NameOk (2 ^ lg) key l.name) (hr : RepS (2 ^ lg) A s' (.node b cs')) (ht : t ≤ t') : Sim lg A net b cs key t (.ok (old, cs')) (.ok lo, s', t')
  | err {e : Err} {s' : Shard} {t' : Nat} (hr : RepS (2 ^ lg) A s' (.node b cs)) (ht : t ≤ t') : Sim lg A net b cs key t (.error e) (.error e, s', t')
  | net {r : Except Err (Option Val × List Kid)} {s' : Shard} {t' : Nat} (hr : RepS (2 ^ lg) A s' (.node b cs)) (hf : FetchFail A net t t') :
      Sim lg A net b cs key t r (.error .notFound, s', t')

theorem FetchFail.mono {net : Net} {a b c d : Nat} (h : FetchFail A net a b) (h1 : c ≤ a) (h2 : b ≤ d) : FetchFail A net c d := by
  obtain ⟨u, x, h3, h4, h5, h6⟩ := h
  exact ⟨u, x, by omega, by omega, h5, h6⟩

theorem FetchFail.le {net : Net} {a b : Nat} (h : FetchFail A net a b) : a ≤ b := by
  obtain ⟨u, x, h3, h4, h5, h6⟩ := h; omega

/-- `collapse` does what `tcollapse` does. -/
theorem collapse_sim (hp : HP H lg) {s : Shard} {b b' : Builder} {cs cs'' : List Kid} {i : Nat} {child : Shard} (hs : Sorted cs) (hi : i < 2 ^ lg)
    (hg : kget cs i ≠ none) (h : RepS (2 ^ lg) A s (.node b (kset cs i (.node b' cs'')))) (hc : RepS (2 ^ lg) A child (.node b' cs''))
    (hk : ∀ j k v, Kid.mk j (.leaf k v) ∈ cs'' → k ≠ []) (old : Option Link) :
    ∃ s', s.collapse i (kpos cs i) child old = (.ok old, s') ∧ RepS (2 ^ lg) A s' (.node b (tcollapse cs i b' cs'')) := by
  have hi' : i ∈ idxs cs := by
    by_contra hn; exact hg (kget_none_iff.mpr hn)
  have hs' := sorted_kset (i := i) (t := .node b' cs'') hs
  have hg' : kget (kset cs i (.node b' cs'')) i ≠ none := by rw [kget_kset hs hi', if_pos rfl]; simp
  have hpos : kpos (kset cs i (.node b' cs'')) i = kpos cs i := by rw [← kpos_eq hs', ← kpos_eq hs, idxs_kset]
  have hkk : ∀ t, kset (kset cs i (.node b' cs'')) i t = kset cs i t := by
    intro t
    simp only [kset, List.map_map]
    apply List.map_congr_left
    intro c _
    simp only [Function.comp]
    split <;> simp_all
  obtain ⟨c1, c2, c3, c4, c5, c6⟩ := repS_node.mp hc
  rw [Shard.collapse.eq_def]
  match hsl : child.slots, cs'' with
  | [], [] =>
    dsimp only
    obtain ⟨s', hrm, hr⟩ := rep_rm hs' h hi hg'
    rw [hrm]
    refine ⟨s', rfl, ?_⟩
    rw [tcollapse]
    have : kdel (kset cs i (.node b' [])) i = kdel cs i := by
      apply kids_ext (sorted_kdel hs') (sorted_kdel hs)
      intro j
      rw [kget_kdel hs', kget_kdel hs, kget_kset hs hi']
      split <;> rfl
    rw [this] at hr; exact hr
  | [], _ :: _ => rw [hsl] at c6; simp [RepL] at c6
  | _ :: _, [] => rw [hsl, repL_iff] at c6; cases c6
  | [.child sc], [.mk j t] =>
    rw [hsl] at c6
    simp only [RepL] at c6
    dsimp only
    have hv := repS_isValue c6.1 (by rintro k v rfl; exact hk j k v (by simp))
    cases t with
    | leaf k v =>
      rw [hv]
      refine ⟨_, rfl, ?_⟩
      simp only [if_true, tcollapse, setChild_set]
      rw [← hkk, ← hpos]
      exact rep_set hs' h hg' (sl := .child sc) (by simpa [RepSl] using c6.1)
    | node b2 cs2 =>
      rw [hv]
      exact ⟨_, rfl, by simpa [tcollapse] using h⟩
  | [.link l], [.mk j t] =>
    rw [hsl] at c6
    simp only [RepL] at c6
    dsimp only
    obtain ⟨⟨p, hpl, hle⟩, hsub⟩ := c6.1
    have hnm : l.name = p ++ t.tkey := by rw [hle]; rfl
    cases t with
    | leaf k v =>
      have hkl : 0 < k.length := List.length_pos_iff.mpr (hk j k v (by simp))
      have hct : childLinkType child.size l = .ok .shardValueLink := by
        rw [childLinkType, hnm, c1, Trie.tkey, List.length_append, hpl, if_neg (by omega), if_neg (by omega)]
      rw [hct]
      refine ⟨_, rfl, ?_⟩
      have hfin := rep_set hs' h hg' (sl := .link l) (t := .leaf k v) (by simpa [RepSl] using c6.1)
      rw [hkk, hpos] at hfin
      exact hfin
    | node b2 cs2 =>
      have hct : childLinkType child.size l = .ok .shardLink := by
        rw [childLinkType, hnm, c1, Trie.tkey, List.append_nil, hpl, if_neg (by omega), if_pos rfl]
      rw [hct]
      exact ⟨_, rfl, by simpa [tcollapse] using h⟩
  | [_], _ :: _ :: _ => rw [hsl, repL_iff] at c6; cases c6 with | cons _ h => cases h
  | _ :: _ :: _, [_] => rw [hsl, repL_iff] at c6; cases c6 with | cons _ h => cases h
  | sl0 :: _ :: _, .mk _ t0 :: _ :: _ =>
    refine ⟨s, by cases sl0 <;> rfl, ?_⟩
    have : tcollapse cs i b' (.mk ‹_› t0 :: ‹Kid› :: ‹List Kid›) = kset cs i (.node b' (.mk ‹_› t0 :: ‹Kid› :: ‹List Kid›)) := by cases t0 <;> rfl
    rw [this]; exact h

theorem swap_sim (hp : HP H lg) (net : Net) (n : Nat) : ∀ (d : Nat) (P : Bytes → Prop) (b : Builder) (cs : List Kid) (s : Shard) (key : Bytes)
    (value : Option Link) (t f : Nat), n + d = levels lg → (n = 0 ∨ WF (hix H lg) (2 ^ lg) n d P cs) → P key → key ≠ [] → (∀ l, value = some l → NameOk (2 ^ lg) key l.name) →
    RepS (2 ^ lg) A s (.node b cs) → n < f →
    Sim lg A net b cs key t (tswap (hix H lg) n d b cs key (value.map lval)) (Shard.swapValue H net f s (d * lg) key value t) := by
  induction n with
  | zero =>
    intro d P b cs s key value t f hd _ _ _ _ hr hf
    obtain ⟨f, rfl⟩ : ∃ g, f = g + 1 := ⟨f - 1, by omega⟩
    rw [Shard.swapValue, lg_eq hp (repS_node.mp hr).1, next_deep hp key (by omega)]
    exact .err hr (le_refl _)
  | succ n ih =>
    intro d P b cs s key value t f hd hw hP hkey hvn hr hf
    obtain ⟨f, rfl⟩ : ∃ g, f = g + 1 := ⟨f - 1, by omega⟩
    replace hw : WF (hix H lg) (2 ^ lg) (n + 1) d P cs := hw.resolve_left (by omega)
    have hs := hw.sorted
    have hi : hix H lg key d < 2 ^ lg := hix_lt key d
    generalize hidx : hix H lg key d = idx at hi
    rw [Shard.swapValue, lg_eq hp (repS_node.mp hr).1, next_ok hp key hd]
    dsimp only
    rw [tswap.eq_def]
    dsimp only
    rw [hidx, bit_iff hr hi, sliceIndex_eq hs hr hi]
    cases hg : kget cs idx with
    | none =>
      simp only [Option.isSome_none, if_true]
      cases value with
      | none => rw [insert_none]; exact .err hr (le_refl _)
      | some v =>
        obtain ⟨s', hins, hr'⟩ := rep_insert hp.valid hs hr hi hg key v
        rw [hins]
        exact .ok rfl (by simp) hr' (le_refl _)
    | some tr =>
      simp only [Option.isSome_some, Bool.true_eq_false, if_false]
      have hgn : kget cs idx ≠ none := by rw [hg]; simp
      obtain ⟨hkl, hkn⟩ := wf_kid hw hg
      rcases get_spec hp.valid hs hr hg hkl hkn net t with ⟨t', he, hff⟩ | ⟨c, t1, he, ht1, hc⟩
      · rw [he]; exact .net hr hff
      rw [he]
      dsimp only
      have hset : ∀ (c' : Shard) (tr' : Trie), RepS (2 ^ lg) A c' tr' →
          RepS (2 ^ lg) A ((s.setChild c (kpos cs idx)).setChild c' (kpos cs idx)) (.node b (kset cs idx tr')) := by
        intro c' tr' hc'
        rw [setChild_setChild, setChild_set]
        exact rep_set hs hr hgn (sl := .child c') hc'
      have hs1 : RepS (2 ^ lg) A (s.setChild c (kpos cs idx)) (.node b cs) := by
        have := hset c tr hc
        rw [setChild_setChild, kset_self hs hg] at this
        exact this
      have hv := repS_isValue hc hkl
      cases tr with
      | leaf k0 v0 =>
        simp only at hv
        obtain ⟨hck, nm, hnm, hcv⟩ := repS_leaf.mp hc
        rw [hv, if_pos rfl, hck]
        by_cases hkk : k0 = key
        · simp only [hkk, if_true]
          cases value with
          | none =>
            obtain ⟨s', hrm, hr'⟩ := rep_rm hs hs1 hi hgn
            dsimp only
            rw [hrm]
            exact .ok (by rw [hcv]; rfl) (by rw [hcv]; rintro l ⟨⟩; exact hkk ▸ hnm) hr' ht1
          | some v =>
            refine .ok (by rw [hcv]; rfl) (by rw [hcv]; rintro l ⟨⟩; exact hkk ▸ hnm) (hset _ _ ?_) ht1
            rw [repS_leaf]
            cases c; simp only [Shard.withVal, Shard.key, Shard.val] at *
            exact ⟨by rw [hck, hkk], by have := hvn v rfl; cases v; exact ⟨_, this, rfl⟩⟩
        · simp only [hkk, if_false]
          cases value with
          | none => exact .err hs1 ht1
          | some v =>
            have hsz := (repS_node.mp hs1).1
            have hbd : pbBuilder (s.setChild c (kpos cs idx)).builder = b := (repS_node.mp hs1).2.2.2.1
            dsimp only
            rw [hsz, newShard, makeShard_valid hp.valid]
            dsimp only [Shard.setCidBuilder]
            have hnew := rep_new (H := H) (A := A) hp (s.setChild c (kpos cs idx)).builder
            rw [hbd] at hnew
            have hw0 : n = 0 ∨ WF (hix H lg) (2 ^ lg) n (d + 1) (fun k => P k ∧ hix H lg k d = idx) [] := by
              cases n with
              | zero => exact .inl rfl
              | succ n => exact .inr (wf_nil _ _ _)
            have h1 := ih (d + 1) (fun k => P k ∧ hix H lg k d = idx) b [] _ key (some v) t1 f (by omega) hw0 ⟨hP, hidx⟩ hkey hvn hnew (by omega)
            simp only [Option.map_some] at h1 ⊢
            generalize hR : Shard.swapValue H net f _ ((d + 1) * lg) key (some v) t1 = R1 at h1 ⊢
            generalize hT : tswap (hix H lg) n (d + 1) b [] key (some (lval v)) = T1 at h1 ⊢
            cases h1 with
            | err hr1 ht => exact .err hs1 (by omega)
            | net hr1 hff => exact .net hs1 (hff.mono ht1 (le_refl _))
            | ok hlo hln hr1 ht =>
              rename_i old c1 lo s2 t2
              dsimp only
              have hw1 : n = 0 ∨ WF (hix H lg) (2 ^ lg) n (d + 1) (fun k => P k ∧ hix H lg k d = idx) c1 := by
                rcases hw0 with rfl | hw0
                · exact .inl rfl
                · have := tswap_spec hix_lt n (d + 1) _ b [] key (some (lval v)) hw0 ⟨hP, hidx⟩ hkey
                  rw [hT] at this
                  exact .inr this.1
              obtain ⟨_, hPk, hik, hk0⟩ := hw.leaf hg
              have h2 := ih (d + 1) (fun k => P k ∧ hix H lg k d = idx) b c1 s2 k0 c.val t2 f (by omega) hw1 ⟨hPk, hik⟩ hk0 (by rw [hcv]; rintro l ⟨⟩; exact hnm) hr1 (by omega)
              have hcv' : c.val.map lval = some v0 := by rw [hcv]; rfl
              rw [hcv'] at h2
              generalize hR2 : Shard.swapValue H net f s2 ((d + 1) * lg) k0 c.val t2 = R2 at h2 ⊢
              generalize hT2 : tswap (hix H lg) n (d + 1) b c1 k0 (some v0) = T2 at h2 ⊢
              cases h2 with
              | err hr2 ht' => exact .err hs1 (by omega)
              | net hr2 hff => exact .net hs1 (hff.mono (by omega) (le_refl _))
              | ok hlo2 _ hr2 ht' => exact .ok rfl (by simp) (hset _ _ hr2) (by omega)
      | node b' cs' =>
        simp only at hv
        rw [hv, if_neg (by simp)]
        obtain ⟨_, hw'⟩ := hw.node hg
        have h1 := ih (d + 1) (fun k => P k ∧ hix H lg k d = idx) b' cs' c key value t1 f (by omega) (.inr hw') ⟨hP, hidx⟩ hkey hvn hc (by omega)
        dsimp only
        generalize hR : Shard.swapValue H net f _ ((d + 1) * lg) key value t1 = R1 at h1 ⊢
        generalize hT : tswap (hix H lg) n (d + 1) b' cs' key (value.map lval) = T1 at h1 ⊢
        cases h1 with
        | err hr1 ht =>
          refine .err ?_ (by omega)
          have := hset _ _ hr1
          rwa [kset_self hs hg] at this
        | net hr1 hff =>
          refine .net ?_ (hff.mono ht1 (le_refl _))
          have := hset _ _ hr1
          rwa [kset_self hs hg] at this
        | ok hlo hln hr1 ht =>
          rename_i old cs'' lo s2 t2
          cases value with
          | some v => exact .ok hlo hln (hset _ _ hr1) (by omega)
          | none =>
            have hsp := tswap_spec hix_lt n (d + 1) _ b' cs' key none hw' ⟨hP, hidx⟩ hkey
            simp only [Option.map_none] at hT
            rw [hT] at hsp
            have hk' : ∀ j k v, Kid.mk j (.leaf k v) ∈ cs'' → k ≠ [] := by
              intro j k v hm
              cases n with
              | zero => exact hw'.elim
              | succ n => exact (hsp.1.2 _ hm).2.2.2
            obtain ⟨s', hcol, hr'⟩ := collapse_sim hp hs hi hgn (hset _ _ hr1) hr1 hk' lo
            dsimp only [Option.map_none]
            rw [hcol]
            exact .ok hlo hln hr' (by omega)

/-- Lookup. -/
inductive SimGet (lg : Nat) (A : Node → Prop) (net : Net) (b : Builder) (cs : List Kid) (t : Nat) :
    Option Val → Except Err (Option Link) × Shard × Nat → Prop
  | ok {v : Val} {l : Link} {s' : Shard} {t' : Nat} (hl : lval l = v) (hr : RepS (2 ^ lg) A s' (.node b cs)) (ht : t ≤ t') :
      SimGet lg A net b cs t (some v) (.ok (some l), s', t')
  | err {s' : Shard} {t' : Nat} (hr : RepS (2 ^ lg) A s' (.node b cs)) (ht : t ≤ t') : SimGet lg A net b cs t none (.error .notExist, s', t')
  | net {r : Option Val} {s' : Shard} {t' : Nat} (hr : RepS (2 ^ lg) A s' (.node b cs)) (hf : FetchFail A net t t') :
      SimGet lg A net b cs t r (.error .notFound, s', t')

theorem get_sim (hp : HP H lg) (net : Net) (n : Nat) : ∀ (d : Nat) (P : Bytes → Prop) (b : Builder) (cs : List Kid) (s : Shard) (key : Bytes)
    (t f : Nat), n + d = levels lg → WF (hix H lg) (2 ^ lg) n d P cs → RepS (2 ^ lg) A s (.node b cs) → n < f →
    SimGet lg A net b cs t (tfind (hix H lg) n d cs key) (Shard.getValue H net f s (d * lg) key t) := by
  induction n with
  | zero => intro d P b cs s key t f hd hw; exact hw.elim
  | succ n ih =>
    intro d P b cs s key t f hd hw hr hf
    obtain ⟨f, rfl⟩ : ∃ g, f = g + 1 := ⟨f - 1, by omega⟩
    have hs := hw.sorted
    have hi : hix H lg key d < 2 ^ lg := hix_lt key d
    generalize hidx : hix H lg key d = idx at hi
    rw [Shard.getValue, lg_eq hp (repS_node.mp hr).1, next_ok hp key hd]
    dsimp only
    rw [tfind, hidx, bit_iff hr hi, sliceIndex_eq hs hr hi]
    cases hg : kget cs idx with
    | none =>
      simp only [Option.isSome_none, if_true]
      exact .err hr (le_refl _)
    | some tr =>
      simp only [Option.isSome_some, Bool.true_eq_false, if_false]
      have hgn : kget cs idx ≠ none := by rw [hg]; simp
      obtain ⟨hkl, hkn⟩ := wf_kid hw hg
      rcases get_spec hp.valid hs hr hg hkl hkn net t with ⟨t', he, hff⟩ | ⟨c, t1, he, ht1, hc⟩
      · rw [he]; exact .net hr hff
      rw [he]
      dsimp only
      have hset : ∀ (c' : Shard), RepS (2 ^ lg) A c' tr →
          RepS (2 ^ lg) A ((s.setChild c (kpos cs idx)).setChild c' (kpos cs idx)) (.node b cs) := by
        intro c' hc'
        rw [setChild_setChild, setChild_set]
        have := rep_set hs hr hgn (sl := .child c') hc'
        rwa [kset_self hs hg] at this
      have hs1 : RepS (2 ^ lg) A (s.setChild c (kpos cs idx)) (.node b cs) := by
        have := hset c hc
        rwa [setChild_setChild] at this
      have hv := repS_isValue hc hkl
      cases tr with
      | leaf k0 v0 =>
        simp only at hv
        obtain ⟨hck, nm, hnm, hcv⟩ := repS_leaf.mp hc
        rw [hv, if_pos rfl, hck]
        by_cases hkk : k0 = key
        · simp only [hkk, if_true, hcv]
          exact .ok rfl hs1 ht1
        · simp only [hkk, if_false]
          exact .err hs1 ht1
      | node b' cs' =>
        simp only at hv
        rw [hv, if_neg (by simp)]
        obtain ⟨_, hw'⟩ := hw.node hg
        have h1 := ih (d + 1) (fun k => P k ∧ hix H lg k d = idx) b' cs' c key t1 f (by omega) hw' hc (by omega)
        dsimp only
        generalize hR : Shard.getValue H net f _ ((d + 1) * lg) key t1 = R1 at h1 ⊢
        generalize hT : tfind (hix H lg) n (d + 1) cs' key = T1 at h1 ⊢
        cases h1 with
        | err hr1 ht => exact .err (hset _ hr1) (ht1.trans ht)
        | net hr1 hff => exact .net (hset _ hr1) (hff.mono ht1 (le_refl _))
        | ok hlo hr1 ht => exact .ok hlo (hset _ hr1) (ht1.trans ht)

end Unixfs.Hamt
