import Verif.Hamt.Sim

/-!
# Serialisation and sequential enumeration of a represented shard

The definitions in this file belong to proofs; they model no code.
-/

namespace Unixfs.Hamt

variable {H : Hash} {lg : Nat} {A : Node → Prop}

theorem withCodec_idem (b : Builder) (c : Nat) : (b.withCodec c).withCodec c = b.withCodec c := by
  unfold Builder.withCodec
  by_cases h : c = b.codec
  · simp [h]
  · simp [h]

theorem pbBuilder_fix (b : Option Builder) : (pbBuilder b).withCodec 0x70 = pbBuilder b := withCodec_idem _ _

theorem filter_range_idxs {cs : List Kid} (hs : Sorted cs) {size : Nat} (hl : ∀ i ∈ idxs cs, i < size) :
    (List.range size).filter (fun i => decide (i ∈ idxs cs)) = idxs cs := by
  have h1 : ((List.range size).filter (fun i => decide (i ∈ idxs cs))).Pairwise (· < ·) := List.pairwise_lt_range.filter _
  have h2 := sorted_iff.mp hs
  apply List.Perm.eq_of_pairwise (le := (· < ·)) _ h1 h2
  · rw [List.perm_ext_iff_of_nodup (h1.imp (fun h => by omega)) (h2.imp (fun h => by omega))]
    intro a
    simp only [List.mem_filter, List.mem_range, decide_eq_true_eq]
    exact ⟨fun h => h.2, fun h => ⟨hl a h, h⟩⟩
  · intro a b _ _ h3 h4; omega

/-- Result of serialising: the expected links or node, or a refused addition. `xs` are the shard
nodes below. -/
def NodeRes {α : Type} (A : Node → Prop) (ref : Nat → Bool) (xs : List Node) (st : List Node) (v : α) (r : Except Err α) (st' : List Node) : Prop :=
  (∃ ext, st' = ext ++ st ∧ ∀ x ∈ ext, x ∈ xs) ∧
  ((r = .error .addFailed ∧ ref st'.length = true) ∨ (r = .ok v ∧ ∀ x ∈ xs, GoodSub (fun x => A x ∨ x ∈ st') x))

theorem GoodSub.mono {A B : Node → Prop} (h : ∀ x, A x → B x) {x : Node} (hx : GoodSub A x) : GoodSub B x := ⟨h x hx.1, hx.2⟩

theorem linksOf_sim {N : Nat} (ref : Nat → Bool)
    (ih : ∀ (s : Shard) (b : Builder) (cs : List Kid), RepS (2 ^ lg) A s (.node b cs) → (∃ n d P, WF (hix H lg) (2 ^ lg) n d P cs ∧ n < N) →
      ∀ st, NodeRes A ref ((Trie.node b cs).subs (2 ^ lg)) st ((Trie.node b cs).toN (2 ^ lg)) (s.toNode ref st).1 (s.toNode ref st).2)
    (n d : Nat) (P : Bytes → Prop) (hn : n < N) : ∀ (cs : List Kid) (ss : List Slot), RepL (2 ^ lg) A ss cs →
      (∀ c ∈ cs, c.idx < 2 ^ lg ∧ WFt (hix H lg) (2 ^ lg) n d P c.idx c.trie) → ∀ st,
      NodeRes A ref (subsL (2 ^ lg) cs) st (kidLinks (2 ^ lg) cs) (linksOf ref (2 ^ lg) ss (idxs cs) st).1 (linksOf ref (2 ^ lg) ss (idxs cs) st).2 := by
  intro cs
  induction cs with
  | nil =>
    intro ss hr _ st
    rw [show idxs [] = [] from rfl, linksOf]
    exact ⟨⟨[], rfl, by simp⟩, .inr ⟨by rw [kidLinks], by simp [subsL]⟩⟩
  | cons c cs ihl =>
    intro ss hr hc st
    obtain ⟨i, t⟩ := c
    have hct := hc (.mk i t) (by simp)
    simp only [Kid.idx_mk, Kid.trie_mk] at hct
    rw [show idxs (Kid.mk i t :: cs) = i :: idxs cs from rfl]
    match ss, hr with
    | .link l :: ss, hr =>
      simp only [RepL] at hr
      obtain ⟨⟨⟨p, hpl, hle⟩, hsub⟩, hrl⟩ := hr
      have hnm : l.name = p ++ t.tkey := by rw [hle]; rfl
      rw [linksOf, if_neg (by rw [hnm, List.length_append, hpl]; omega)]
      have h2 := ihl ss hrl (fun c hc' => hc c (by simp [hc'])) st
      generalize linksOf ref (2 ^ lg) ss (idxs cs) st = R at h2 ⊢
      obtain ⟨r, st'⟩ := R
      obtain ⟨⟨ext, he, hext⟩, h2⟩ := h2
      refine ⟨⟨ext, ?_, fun x hx => by simp [subsL, hext x hx]⟩, ?_⟩
      · cases r <;> exact he
      · rcases h2 with ⟨h2, h3⟩ | ⟨h2, h3⟩
        · simp only at h2 h3; subst h2; exact .inl ⟨rfl, h3⟩
        · simp only at h2 h3; subst h2
          right
          refine ⟨?_, ?_⟩
          · dsimp only
            rw [kidLinks, hnm, ← hpl, List.drop_left, hle]; rfl
          · intro x hx
            simp only [subsL, List.mem_append] at hx
            rcases hx with hx | hx
            · exact (hsub x hx).mono (fun x hx => .inl hx)
            · exact h3 x hx
    | .child s :: ss, hr =>
      simp only [RepL] at hr
      obtain ⟨hrs, hrl⟩ := hr
      rw [linksOf]
      have hkl : ∀ k v, t = .leaf k v → k ≠ [] := by rintro k v rfl; exact hct.2.2.2
      rw [repS_isValue hrs hkl]
      cases t with
      | leaf k v =>
        obtain ⟨hk, nm, _, hv⟩ := repS_leaf.mp hrs
        rw [if_pos rfl, hv]
        dsimp only
        have h2 := ihl ss hrl (fun c hc' => hc c (by simp [hc'])) st
        generalize linksOf ref (2 ^ lg) ss (idxs cs) st = R at h2 ⊢
        obtain ⟨r, st'⟩ := R
        obtain ⟨⟨ext, he, hext⟩, h2⟩ := h2
        refine ⟨⟨ext, ?_, fun x hx => by simp [subsL, hext x hx]⟩, ?_⟩
        · cases r <;> exact he
        · rcases h2 with ⟨h2, h3⟩ | ⟨h2, h3⟩
          · simp only at h2 h3; subst h2; exact .inl ⟨rfl, h3⟩
          · simp only at h2 h3; subst h2
            refine .inr ⟨?_, ?_⟩
            · dsimp only
              rw [kidLinks, hk]; rfl
            · intro x hx
              simp only [subsL, Trie.subs, List.nil_append] at hx
              exact h3 x hx
      | node b' cs' =>
        rw [if_neg (by simp)]
        have hkey : s.key = [] := (repS_node.mp hrs).2.1
        have h1 := ih s b' cs' hrs ⟨n, d + 1, _, hct.2, hn⟩ st
        generalize Shard.toNode ref s st = R1 at h1 ⊢
        obtain ⟨r1, st1⟩ := R1
        obtain ⟨⟨ext1, he1, hext1⟩, h1⟩ := h1
        rcases h1 with ⟨h1, h1'⟩ | ⟨h1, h1'⟩
        · simp only at h1 h1' he1; subst h1
          exact ⟨⟨ext1, he1, fun x hx => by simp [subsL, hext1 x hx]⟩, .inl ⟨rfl, h1'⟩⟩
        simp only at h1 h1' he1; subst h1
        dsimp only
        by_cases href : ref st1.length = true
        · rw [if_pos href]
          exact ⟨⟨ext1, he1, fun x hx => by simp [subsL, hext1 x hx]⟩, .inl ⟨rfl, href⟩⟩
        rw [if_neg href]
        dsimp only
        have h2 := ihl ss hrl (fun c hc' => hc c (by simp [hc'])) ((Trie.node b' cs').toN (2 ^ lg) :: st1)
        generalize linksOf ref (2 ^ lg) ss (idxs cs) ((Trie.node b' cs').toN (2 ^ lg) :: st1) = R at h2 ⊢
        obtain ⟨r, st'⟩ := R
        obtain ⟨⟨ext, he, hext⟩, h2⟩ := h2
        simp only at he
        refine ⟨⟨ext ++ (Trie.node b' cs').toN (2 ^ lg) :: ext1, ?_, ?_⟩, ?_⟩
        · cases r <;> (dsimp only; rw [he, he1]; simp)
        · intro x hx
          simp only [List.mem_append, List.mem_cons] at hx
          simp only [subsL, List.mem_append]
          rcases hx with hx | rfl | hx
          · exact .inr (hext x hx)
          · left; simp [Trie.subs, Trie.toN]
          · exact .inl (hext1 x hx)
        · rcases h2 with ⟨h2, h3⟩ | ⟨h2, h3⟩
          · simp only at h2 h3; subst h2; exact .inl ⟨rfl, h3⟩
          · simp only at h2 h3; subst h2
            right
            refine ⟨?_, ?_⟩
            · dsimp only
              rw [kidLinks, hkey]; rfl
            · intro x hx
              simp only [subsL, List.mem_append] at hx
              rcases hx with hx | hx
              · refine (h1' x hx).mono (fun x hx => ?_)
                rcases hx with hx | hx
                · exact .inl hx
                · right; dsimp only; rw [he]; simp [hx]
              · exact h3 x hx

theorem toNode_sim (hp : HP H lg) (ref : Nat → Bool) (N : Nat) : ∀ (s : Shard) (b : Builder) (cs : List Kid), RepS (2 ^ lg) A s (.node b cs) →
    (∃ n d P, WF (hix H lg) (2 ^ lg) n d P cs ∧ n < N) →
    ∀ st, NodeRes A ref ((Trie.node b cs).subs (2 ^ lg)) st ((Trie.node b cs).toN (2 ^ lg)) (s.toNode ref st).1 (s.toNode ref st).2 := by
  induction N with
  | zero => rintro s b cs _ ⟨n, d, P, _, hn⟩; omega
  | succ N ih =>
    rintro s b cs hr ⟨n, d, P, hw, hn⟩ st
    cases n with
    | zero => exact hw.elim
    | succ n =>
      obtain ⟨size, bf, slots, bd, key, val⟩ := s
      obtain ⟨h1, h2, h3, h4, h5, h6⟩ := repS_node.mp hr
      simp only [Shard.size, Shard.bf, Shard.slots, Shard.builder] at h1 h4 h5 h6
      subst h1
      have hl := wf_idx hw
      rw [Shard.toNode]
      have hbits : (List.range (2 ^ lg)).filter (fun i => bfBit bf i) = idxs cs := by
        rw [← filter_range_idxs hw.sorted hl]
        apply List.filter_congr
        intro i hi
        rw [h5.bit i (List.mem_range.mp hi)]
      rw [hbits]
      have hlk := linksOf_sim ref ih n d P (by omega) cs slots h6 (fun c hc => by
        obtain ⟨a, b⟩ := hw.2 c hc
        exact ⟨a, by cases ht : c.trie <;> rw [ht] at b <;> exact b⟩) st
      generalize linksOf ref (2 ^ lg) slots (idxs cs) st = R at hlk ⊢
      obtain ⟨r, st'⟩ := R
      obtain ⟨⟨ext, he, hext⟩, h⟩ := hlk
      simp only at he h
      have hsub : ∀ x ∈ ext, x ∈ (Trie.node b cs).subs (2 ^ lg) := fun x hx => by simp [Trie.subs, hext x hx]
      rcases h with ⟨h, h'⟩ | ⟨h, h'⟩
      · subst h; exact ⟨⟨ext, he, hsub⟩, .inl ⟨rfl, h'⟩⟩
      · subst h
        dsimp only
        rw [hamtShardData_eq hp.valid hl h5]
        dsimp only
        by_cases href : ref st'.length = true
        · rw [if_pos href]
          exact ⟨⟨ext, he, hsub⟩, .inl ⟨rfl, href⟩⟩
        · rw [if_neg href, h4]
          refine ⟨⟨_ :: ext, by rw [he]; rfl, ?_⟩, .inr ⟨by rw [Trie.toN], ?_⟩⟩
          · intro x hx
            rcases List.mem_cons.mp hx with rfl | hx
            · simp [Trie.subs]
            · exact hsub x hx
          · intro x hx
            simp only [Trie.subs, List.mem_cons] at hx
            rcases hx with rfl | hx
            · exact ⟨by simp, _, _, _, rfl, by rw [← h4]; exact pbBuilder_fix bd⟩
            · exact (h' x hx).mono (fun x hx => hx.imp id (fun hx => by simp [hx]))

/-! ### Enumeration -/

mutual
/-- The entries of a trie, in index order. -/
def Trie.entries : Trie → List (Bytes × Val)
  | .leaf k v => [(k, v)]
  | .node _ cs => entriesL cs
def entriesL : List Kid → List (Bytes × Val)
  | [] => []
  | .mk _ t :: cs => t.entries ++ entriesL cs
end

theorem entriesL_append (X Y : List Kid) : entriesL (X ++ Y) = entriesL X ++ entriesL Y := by
  induction X with
  | nil => simp [entriesL]
  | cons c X ih => cases c; simp [entriesL, ih]

mutual
def Trie.depth : Trie → Nat
  | .leaf .. => 0
  | .node _ cs => 1 + depthL cs
def depthL : List Kid → Nat
  | [] => 0
  | .mk _ t :: cs => max t.depth (depthL cs)
end

mutual
theorem depth_toN (size : Nat) : ∀ t : Trie, t.depth ≤ nodeDepth (t.toN size)
  | .leaf k v => by simp [Trie.depth]
  | .node b cs => by
    rw [Trie.depth, Trie.toN, nodeDepth]
    have := depth_kidLinks size cs
    omega
theorem depth_kidLinks (size : Nat) : ∀ cs : List Kid, depthL cs ≤ linksDepth (kidLinks size cs)
  | [] => by simp [depthL]
  | .mk i t :: cs => by
    rw [depthL, kidLinks, linksDepth]
    have h1 := depth_toN size t
    have h2 := depth_kidLinks size cs
    omega
end

mutual
theorem depth_rep {size : Nat} : ∀ (s : Shard) (t : Trie), RepS size A s t → t.depth ≤ s.depth
  | s, .leaf k v, _ => by simp [Trie.depth]
  | .mk _ _ slots _ _ _, .node b cs, h => by
    rw [repS_node] at h
    rw [Trie.depth, Shard.depth]
    have := depth_repL slots cs h.2.2.2.2.2
    omega
theorem depth_repL {size : Nat} : ∀ (ss : List Slot) (cs : List Kid), RepL size A ss cs → depthL cs ≤ slotsDepth ss
  | [], [], _ => by simp [depthL]
  | [], _ :: _, h => by rw [repL_iff] at h; cases h
  | _ :: _, [], _ => by simp [depthL]
  | .child s :: ss, .mk i t :: cs, h => by
    simp only [RepL] at h
    rw [depthL, slotsDepth]
    have h1 := depth_rep s t h.1
    have h2 := depth_repL ss cs h.2
    omega
  | .link l :: ss, .mk i t :: cs, h => by
    simp only [RepL] at h
    rw [depthL, slotsDepth]
    obtain ⟨⟨⟨p, _, hle⟩, _⟩, h2⟩ := h
    have h1 := depth_toN size t
    have h2 := depth_repL ss cs h2
    rw [hle]
    simp only [Link.target]
    omega
end

/-- The link that the callback gets for an entry: its name is the bare key. -/
def elink (e : Bytes × Val) : Link := .mk e.1 e.2.1 e.2.2

/-- What an enumeration of the entries `es` may do. -/
def EachRes (A : Node → Prop) (net : Net) (cb : Nat → Bool) (st : EachSt) (es : List (Bytes × Val)) (r : Option Err) (st' : EachSt) : Prop :=
  ∃ es', es' <+: es ∧ st'.out = st.out ++ es'.map elink ∧ st.t ≤ st'.t ∧
    ((r = none ∧ es' = es ∧ ∀ j, st.out.length ≤ j → j < st'.out.length → cb j = false) ∨
     (r = some .notFound ∧ FetchFail A net st.t st'.t ∧ ∀ j, st.out.length ≤ j → j < st'.out.length → cb j = false) ∨
     (r = some (.hamt "callback") ∧ es' ≠ [] ∧ cb (st'.out.length - 1) = true ∧ ∀ j, st.out.length ≤ j → j + 1 < st'.out.length → cb j = false))

theorem EachRes.stop {net : Net} {cb : Nat → Bool} {st st1 : EachSt} {es : List (Bytes × Val)} {e : Err} (h : EachRes A net cb st es (some e) st1)
    (es2 : List (Bytes × Val)) : EachRes A net cb st (es ++ es2) (some e) st1 := by
  obtain ⟨es', h1, h2, h3, h4⟩ := h
  refine ⟨es', h1.trans (List.prefix_append _ _), h2, h3, ?_⟩
  rcases h4 with ⟨h, _⟩ | h | h
  · cases h
  · exact .inr (.inl h)
  · exact .inr (.inr h)

theorem EachRes.next {net : Net} {cb : Nat → Bool} {st st1 st2 : EachSt} {es es2 : List (Bytes × Val)} {r : Option Err}
    (h : EachRes A net cb st es none st1) (h' : EachRes A net cb st1 es2 r st2) : EachRes A net cb st (es ++ es2) r st2 := by
  obtain ⟨es', h1, h2, h3, h4⟩ := h
  obtain ⟨es2', k1, k2, k3, k4⟩ := h'
  rcases h4 with ⟨_, rfl, hcb⟩ | ⟨h, _⟩ | ⟨h, _⟩
  swap; · cases h
  swap; · cases h
  have hlen : st1.out.length = st.out.length + es'.length := by rw [h2]; simp
  have hlen2 : st2.out.length = st1.out.length + es2'.length := by rw [k2]; simp
  refine ⟨es' ++ es2', List.prefix_append_right_inj _ |>.mpr k1, by rw [k2, h2]; simp, by omega, ?_⟩
  rcases k4 with ⟨hr, he, hk⟩ | ⟨hr, hf, hk⟩ | ⟨hr, hne, hl, hk⟩
  · refine .inl ⟨hr, by rw [he], fun j j1 j2 => ?_⟩
    by_cases hj : j < st1.out.length
    · exact hcb j j1 hj
    · exact hk j (by omega) j2
  · refine .inr (.inl ⟨hr, hf.mono h3 (le_refl _), fun j j1 j2 => ?_⟩)
    by_cases hj : j < st1.out.length
    · exact hcb j j1 hj
    · exact hk j (by omega) j2
  · refine .inr (.inr ⟨hr, by simp [hne], hl, fun j j1 j2 => ?_⟩)
    by_cases hj : j < st1.out.length
    · exact hcb j j1 hj
    · exact hk j (by omega) j2

theorem each_sim (hp : HP H lg) (net : Net) (cb : Nat → Bool) (step : Shard → EachSt → Option Err × Shard × EachSt) (b : Builder) (cs : List Kid)
    {n d : Nat} {P : Bytes → Prop} (hw : WF (hix H lg) (2 ^ lg) (n + 1) d P cs)
    (hstep : ∀ c st, ∀ k ∈ cs, RepS (2 ^ lg) A c k.trie →
      RepS (2 ^ lg) A (step c st).2.1 k.trie ∧ EachRes A net cb st k.trie.entries (step c st).1 (step c st).2.2) :
    ∀ (Y X : List Kid), cs = X ++ Y → ∀ (s : Shard) (st : EachSt), RepS (2 ^ lg) A s (.node b cs) →
      RepS (2 ^ lg) A (eachLoop net step (List.range' X.length Y.length) s st).2.1 (.node b cs) ∧
      EachRes A net cb st (entriesL Y) (eachLoop net step (List.range' X.length Y.length) s st).1 (eachLoop net step (List.range' X.length Y.length) s st).2.2 := by
  intro Y
  induction Y with
  | nil =>
    intro X hX s st hr
    simp only [List.length_nil, List.range'_zero, eachLoop]
    exact ⟨hr, [], by simp [entriesL], by simp, le_refl _, .inl ⟨rfl, by simp [entriesL], fun j h1 h2 => by omega⟩⟩
  | cons c Y ih =>
    intro X hX s st hr
    have hs := hw.sorted
    obtain ⟨i, t⟩ := c
    have hmem : Kid.mk i t ∈ cs := by rw [hX]; simp
    have hg : kget cs i = some t := mem_kget hs hmem
    obtain ⟨hkl, hkn⟩ := wf_kid hw hg
    have hpos : kpos cs i = X.length := by
      have hs' := hs
      rw [hX] at hs' ⊢
      rw [Sorted, List.pairwise_append] at hs'
      obtain ⟨_, h2, h3⟩ := hs'
      rw [List.pairwise_cons] at h2
      exact (present_ops (t := t) (t0 := t) (fun c hc => h3 c hc _ (by simp)) (fun c hc => h2.1 c hc)).2.2
    rw [List.length_cons, List.range'_succ, eachLoop]
    rcases get_spec hp.valid hs hr hg hkl hkn net st.t with ⟨t', he, hff⟩ | ⟨c, t1, he, ht1, hc⟩
    · rw [hpos] at he
      rw [he]
      exact ⟨hr, [], List.nil_prefix, by simp, hff.le, .inr (.inl ⟨rfl, hff, fun j h1 h2 => by dsimp only at h2; omega⟩)⟩
    · have hset : ∀ (c' : Shard), RepS (2 ^ lg) A c' t → RepS (2 ^ lg) A ((s.setChild c X.length).setChild c' X.length) (.node b cs) := by
        intro c' hc'
        rw [setChild_setChild, setChild_set, ← hpos]
        have := rep_set hs hr (by rw [hg]; simp) (sl := .child c') (t := t) hc'
        rwa [kset_self hs hg] at this
      rw [hpos] at he
      rw [he]
      dsimp only
      obtain ⟨k1, k2⟩ := hstep c { st with t := t1 } (.mk i t) hmem hc
      simp only [Kid.trie_mk] at k1 k2
      have k3 : EachRes A net cb st t.entries (step c { st with t := t1 }).1 (step c { st with t := t1 }).2.2 := by
        obtain ⟨es', a1, a2, a3, a4⟩ := k2
        refine ⟨es', a1, a2, by simp only at a3; omega, ?_⟩
        rcases a4 with a | ⟨a, b, c⟩ | a
        · exact .inl a
        · exact .inr (.inl ⟨a, b.mono ht1 (le_refl _), c⟩)
        · exact .inr (.inr a)
      generalize step c { st with t := t1 } = R at k1 k2 k3 ⊢
      obtain ⟨r, c', st'⟩ := R
      simp only at k1 k3
      cases r with
      | some e =>
        dsimp only
        rw [entriesL]
        exact ⟨hset _ k1, k3.stop _⟩
      | none =>
        dsimp only
        have := ih (X ++ [.mk i t]) (by rw [hX]; simp) _ st' (hset _ k1)
        rw [List.length_append, List.length_singleton] at this
        rw [entriesL]
        exact ⟨this.1, k3.next this.2⟩

theorem depthL_mem {cs : List Kid} {c : Kid} (h : c ∈ cs) : c.trie.depth ≤ depthL cs := by
  induction cs with
  | nil => cases h
  | cons a cs ih =>
    obtain ⟨i, t⟩ := a
    rw [depthL]
    rcases List.mem_cons.mp h with rfl | h
    · simp only [Kid.trie_mk]; omega
    · have := ih h; omega

theorem forEach_sim (hp : HP H lg) (net : Net) (cb : Nat → Bool) (f : Nat) : ∀ (s : Shard) (b : Builder) (cs : List Kid) (n d : Nat) (P : Bytes → Prop) (st : EachSt),
    WF (hix H lg) (2 ^ lg) n d P cs → RepS (2 ^ lg) A s (.node b cs) → (Trie.node b cs).depth ≤ f →
    RepS (2 ^ lg) A (forEachF net cb f s st).2.1 (.node b cs) ∧
      EachRes A net cb st (entriesL cs) (forEachF net cb f s st).1 (forEachF net cb f s st).2.2 := by
  induction f with
  | zero => intro s b cs n d P st _ _ h; rw [Trie.depth] at h; omega
  | succ f ih =>
    intro s b cs n d P st hw hr hf
    cases n with
    | zero => exact hw.elim
    | succ n =>
      have hlen : s.slots.length = cs.length := by
        have := (repS_node.mp hr).2.2.2.2.2
        rw [repL_iff] at this
        exact this.length_eq
      rw [forEachF, hlen, List.range_eq_range']
      refine each_sim hp net cb _ b cs hw ?_ cs [] rfl s st hr
      rintro c st' ⟨i, t⟩ hk hc
      simp only [Kid.trie_mk] at hc ⊢
      have hg := mem_kget hw.sorted hk
      obtain ⟨hkl, hkn⟩ := wf_kid hw hg
      rw [repS_isValue hc hkl]
      cases t with
      | leaf k v =>
        obtain ⟨h1, nm, _, h2⟩ := repS_leaf.mp hc
        simp only [if_true]
        have hl : Link.rename (c.val.getD (.mk [] 0 default)) c.key = elink (k, v) := by rw [h1, h2]; rfl
        rw [hl]
        refine ⟨?_, [(k, v)], by simp [Trie.entries], by simp, le_refl _, ?_⟩
        · rw [repS_leaf]
          cases c
          exact ⟨h1, _, ⟨le_refl _, Nat.le_add_left _ _⟩, rfl⟩
        · cases hcb : cb st'.out.length with
          | false =>
            refine .inl ⟨by simp, by simp [Trie.entries], fun j j1 j2 => ?_⟩
            simp only [List.length_append, List.length_singleton] at j2
            rw [show j = st'.out.length by omega]; exact hcb
          | true =>
            refine .inr (.inr ⟨by simp, by simp, by simpa using hcb, fun j j1 j2 => ?_⟩)
            simp only [List.length_append, List.length_singleton] at j2
            omega
      | node b' cs' =>
        simp only [Bool.false_eq_true, if_false]
        have hd : (Trie.node b' cs').depth ≤ f := by
          have := depthL_mem hk
          rw [Trie.depth] at hf
          simp only [Kid.trie_mk] at this
          omega
        have := ih c b' cs' n (d + 1) _ st' (hw.node hg).2 hc hd
        rw [Trie.entries]
        exact this

/-- The entries are exactly the map. -/
theorem entries_find (n : Nat) : ∀ (d : Nat) (P : Bytes → Prop) (cs : List Kid), WF (hix H lg) (2 ^ lg) n d P cs →
    ∀ k v, (k, v) ∈ entriesL cs ↔ tfind (hix H lg) n d cs k = some v := by
  induction n with
  | zero => intro d P cs h; exact h.elim
  | succ n ih =>
    intro d P cs hw k v
    have hmem : ∀ (cs : List Kid), (k, v) ∈ entriesL cs ↔ ∃ c ∈ cs, (k, v) ∈ c.trie.entries := by
      intro cs
      induction cs with
      | nil => simp [entriesL]
      | cons c cs ih => cases c; simp [entriesL, ih]
    rw [hmem, tfind_succ]
    constructor
    · rintro ⟨⟨i, t⟩, hc, he⟩
      have hg := mem_kget hw.sorted hc
      simp only [Kid.trie_mk] at he
      cases t with
      | leaf k' v' =>
        simp only [Trie.entries, List.mem_singleton, Prod.mk.injEq] at he
        obtain ⟨rfl, rfl⟩ := he
        rw [(hw.leaf hg).2.2.1, hg]; simp [tsub]
      | node b' cs' =>
        rw [Trie.entries] at he
        obtain ⟨_, hw'⟩ := hw.node hg
        have hf := (ih _ _ _ hw' k v).mp he
        rw [((tfind_some hw' hf).1).2, hg]
        exact hf
    · intro hf
      cases hg : kget cs (hix H lg k d) with
      | none => rw [hg] at hf; cases hf
      | some t =>
        rw [hg] at hf
        simp only [Option.bind_some] at hf
        refine ⟨_, kget_mem hg, ?_⟩
        simp only [Kid.trie_mk]
        cases t with
        | leaf k' v' =>
          simp only [tsub] at hf
          split at hf
          · rename_i h; cases hf; simp [Trie.entries, h]
          · cases hf
        | node b' cs' =>
          rw [Trie.entries]
          obtain ⟨_, hw'⟩ := hw.node hg
          exact (ih _ _ _ hw' k v).mpr hf

/-- No name twice; names in the order of their hashes. -/
theorem entries_nodup (n : Nat) : ∀ (d : Nat) (P : Bytes → Prop) (cs : List Kid), WF (hix H lg) (2 ^ lg) n d P cs →
    ((entriesL cs).map Prod.fst).Nodup := by
  induction n with
  | zero => intro d P cs h; exact h.elim
  | succ n ih =>
    intro d P cs hw
    have hkey : ∀ c ∈ cs, (c.trie.entries.map Prod.fst).Nodup ∧ ∀ k ∈ c.trie.entries.map Prod.fst, hix H lg k d = c.idx := by
      rintro ⟨i, t⟩ hc
      have hg := mem_kget hw.sorted hc
      cases t with
      | leaf k v => simp [Trie.entries, (hw.leaf hg).2.2.1]
      | node b' cs' =>
        obtain ⟨_, hw'⟩ := hw.node hg
        simp only [Kid.trie_mk, Trie.entries, Kid.idx_mk]
        refine ⟨ih _ _ _ hw', ?_⟩
        intro k hk
        obtain ⟨⟨k', v⟩, he, rfl⟩ := List.mem_map.mp hk
        exact (tfind_some hw' ((entries_find n _ _ _ hw' _ _).mp he)).1.2
    have hs := hw.sorted
    clear hw ih
    induction cs with
    | nil => simp [entriesL]
    | cons c cs ihl =>
      obtain ⟨i, t⟩ := c
      rw [Sorted, List.pairwise_cons] at hs
      rw [entriesL, List.map_append, List.nodup_append]
      refine ⟨(hkey (.mk i t) (by simp)).1, ihl (fun c hc => hkey c (by simp [hc])) hs.2, ?_⟩
      intro k hk k' hk' he
      subst he
      have h1 := (hkey (.mk i t) (by simp)).2 k hk
      have h2 : ∃ c ∈ cs, hix H lg k d = c.idx := by
        clear ihl h1 hk
        have : ∀ c ∈ cs, ∀ k ∈ c.trie.entries.map Prod.fst, hix H lg k d = c.idx := fun c hc => (hkey c (by simp [hc])).2
        clear hkey hs
        induction cs with
        | nil => simp [entriesL] at hk'
        | cons a cs ih =>
          obtain ⟨j, t'⟩ := a
          rw [entriesL, List.map_append, List.mem_append] at hk'
          rcases hk' with h | h
          · exact ⟨.mk j t', by simp, this (.mk j t') (by simp) k h⟩
          · obtain ⟨c, hc, he⟩ := ih h (fun c hc => this c (by simp [hc]))
            exact ⟨c, by simp [hc], he⟩
      obtain ⟨c, hc, he⟩ := h2
      have := hs.1 c hc
      simp only [Kid.idx_mk] at this h1
      omega

end Unixfs.Hamt
