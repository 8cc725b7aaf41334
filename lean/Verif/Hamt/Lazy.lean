import Verif.Hamt.Hist

/-!
# Results do not depend on what is loaded
-/

namespace Unixfs.Hamt

variable {H : Hash} {lg : Nat} {A : Node → Prop}

theorem kpos_at {X Y : List Kid} {i : Nat} {t : Trie} (hs : Sorted (X ++ .mk i t :: Y)) : kpos (X ++ .mk i t :: Y) i = X.length := by
  rw [Sorted, List.pairwise_append] at hs
  obtain ⟨_, h2, h3⟩ := hs
  rw [List.pairwise_cons] at h2
  exact (present_ops (t := t) (t0 := t) (fun c hc => h3 c hc _ (by simp)) (fun c hc => h2.1 c hc)).2.2

/-- The kid at a slot position. -/
theorem slot_kid {s : Shard} {b : Builder} {cs : List Kid} (hs : Sorted cs) (hr : RepS (2 ^ lg) A s (.node b cs)) {i : Nat} {sl : Slot}
    (hi : s.slots[i]? = some sl) : ∃ j t, kget cs j = some t ∧ kpos cs j = i ∧ RepSl (2 ^ lg) A sl (.mk j t) := by
  have h6 := (repS_node.mp hr).2.2.2.2.2
  rw [repL_iff] at h6
  obtain ⟨hlt, he⟩ := List.getElem?_eq_some_iff.mp hi
  have hlen := h6.length_eq
  have hsp : cs = cs.take i ++ cs[i] :: cs.drop (i + 1) := by
    rw [← List.drop_eq_getElem_cons, List.take_append_drop]
  generalize hc : cs[i] = c at hsp
  obtain ⟨j, t⟩ := c
  refine ⟨j, t, mem_kget hs (by rw [← hc]; exact List.getElem_mem _), ?_, ?_⟩
  · rw [hsp] at hs ⊢
    rw [kpos_at hs, List.length_take]
    omega
  · have := (List.forall₂_iff_get.mp h6).2 i (by omega) (by omega)
    simp only [List.get_eq_getElem] at this
    rw [he, hc] at this
    exact this

theorem loads_rep (hp : HP H lg) {s s' : Shard} (h : Loads s s') : ∀ (b : Builder) (cs : List Kid) (n d : Nat) (P : Bytes → Prop),
    WF (hix H lg) (2 ^ lg) n d P cs → RepS (2 ^ lg) A s (.node b cs) → RepS (2 ^ lg) A s' (.node b cs) := by
  induction h with
  | refl => intro b cs n d P _ hr; exact hr
  | trans _ _ ih1 ih2 => intro b cs n d P hw hr; exact ih2 _ _ _ _ _ hw (ih1 _ _ _ _ _ hw hr)
  | here hl h =>
    intro b cs n d P hw hr
    cases n with
    | zero => exact hw.elim
    | succ n =>
      obtain ⟨j, t, hg, hpos, hsl⟩ := slot_kid hw.sorted hr hl
      obtain ⟨hkl, hkn⟩ := wf_kid hw hg
      rcases get_spec hp.valid hw.sorted hr hg hkl hkn (fun _ _ => true) 0 with ⟨t', he, hf⟩ | ⟨c, t', he, _, hc⟩
      · rw [hpos, h] at he; simp at he
      · rw [hpos, h] at he
        simp only [Prod.mk.injEq, Except.ok.injEq] at he
        obtain ⟨⟨h1, h2⟩, _⟩ := he
        subst h1
        rw [h2, setChild_set, ← hpos]
        have := rep_set hw.sorted hr (by rw [hg]; simp) (sl := .child _) (t := t) hc
        rwa [kset_self hw.sorted hg] at this
  | sub hc h ih =>
    rename_i s0 c c' i
    intro b cs n d P hw hr
    cases n with
    | zero => exact hw.elim
    | succ n =>
      obtain ⟨j, t, hg, hpos, hsl⟩ := slot_kid hw.sorted hr hc
      have hnew : RepS (2 ^ lg) A c' t := by
        cases t with
        | leaf k v =>
          -- nothing below a value
          simp only [RepSl, Kid.trie_mk] at hsl
          exact loads_leaf h _ _ hsl
        | node b' cs' =>
          simp only [RepSl, Kid.trie_mk] at hsl
          exact ih _ _ _ _ _ (hw.node hg).2 hsl
      rw [setChild_set, ← hpos]
      have := rep_set hw.sorted hr (by rw [hg]; simp) (sl := .child _) (t := t) hnew
      rwa [kset_self hw.sorted hg] at this
where
  loads_leaf {s s' : Shard} (h : Loads s s') : ∀ (k : Bytes) (v : Val), RepS (2 ^ lg) A s (.leaf k v) → RepS (2 ^ lg) A s' (.leaf k v) := by
    induction h with
    | refl => intro k v hr; exact hr
    | trans _ _ ih1 ih2 => intro k v hr; exact ih2 _ _ (ih1 _ _ hr)
    | here hl h =>
      rename_i s0 s1 c i l t
      intro k v hr
      rw [repS_leaf] at hr ⊢
      have : s1.key = s0.key ∧ s1.val = s0.val := by
        rw [Shard.get, hl] at h
        dsimp only at h
        split at h
        · simp at h
        · split at h
          · split at h
            · simp at h
            · simp only [Prod.mk.injEq, Except.ok.injEq] at h; rw [← h.1.2]; simp [Shard.setChild]
          · simp at h
        · split at h
          · simp at h
          · simp only [Prod.mk.injEq, Except.ok.injEq] at h; rw [← h.1.2]; simp [Shard.setChild]
      rw [this.1, this.2]; exact hr
    | sub hc h ih =>
      intro k v hr
      rw [repS_leaf] at hr ⊢
      simpa [Shard.setChild] using hr

theorem each_det {net : Net} {cb : Nat → Bool} {st : EachSt} {es : List (Bytes × Val)} {r r' : Option Err} {st1 st2 : EachSt}
    {A1 A2 : Node → Prop} {st' : EachSt} (hst : st.out = st'.out)
    (h1 : EachRes A1 net cb st es r st1) (h2 : EachRes A2 net cb st' es r' st2) (hg : ∀ u x, net u x = true) : r = r' ∧ st1.out = st2.out := by
  obtain ⟨e1, p1, o1, _, h1⟩ := h1
  obtain ⟨e2, p2, o2, _, h2⟩ := h2
  have l1 : st1.out.length = st.out.length + e1.length := by rw [o1]; simp
  have l2 : st2.out.length = st.out.length + e2.length := by rw [o2, hst]; simp
  have hnf : ∀ (A : Node → Prop) t t', ¬ FetchFail A net t t' := by
    rintro A t t' ⟨u, x, _, _, h, _⟩; rw [hg u x] at h; cases h
  rcases h1 with ⟨rfl, he1, hc1⟩ | ⟨_, hf, _⟩ | ⟨rfl, hne1, hl1, hc1⟩
  · rcases h2 with ⟨rfl, he2, hc2⟩ | ⟨_, hf, _⟩ | ⟨rfl, hne2, hl2, hc2⟩
    · exact ⟨rfl, by rw [o1, o2, he1, he2, hst]⟩
    · exact absurd hf (hnf _ _ _)
    · have := List.length_pos_iff.mpr hne2
      have := p2.length_le
      rw [hc1 _ (by omega) (by rw [l1, he1]; omega)] at hl2; cases hl2
  · exact absurd hf (hnf _ _ _)
  · have h3 := List.length_pos_iff.mpr hne1
    rcases h2 with ⟨rfl, he2, hc2⟩ | ⟨_, hf, _⟩ | ⟨rfl, hne2, hl2, hc2⟩
    · have := p1.length_le
      rw [hc2 _ (by rw [← hst]; omega) (by rw [l2, he2]; omega)] at hl1; cases hl1
    · exact absurd hf (hnf _ _ _)
    · have h4 := List.length_pos_iff.mpr hne2
      have hl : e1.length = e2.length := by
        by_contra hne
        rcases Nat.lt_or_gt_of_ne hne with h | h
        · rw [hc2 _ (by rw [← hst]; omega) (by omega)] at hl1; cases hl1
        · rw [hc1 _ (by omega) (by omega)] at hl2; cases hl2
      have : e1 = e2 := by
        rw [List.prefix_iff_eq_take.mp p1, List.prefix_iff_eq_take.mp p2, hl]
      exact ⟨rfl, by rw [o1, o2, this, hst]⟩

theorem noFetchFail (A : Node → Prop) (t t' : Nat) : ¬ FetchFail A goodNet t t' := by
  rintro ⟨u, x, _, _, h, _⟩; cases h

/-- Without faults, the result and the trie after a call depend only on the trie before. -/
theorem exec_det (hp : HP H lg) {b : Builder} {cs : List Kid} {c1 c2 : Cfg} {M1 M2 : NMap} (h1 : Inv H lg b cs c1 M1) (h2 : Inv H lg b cs c2 M2)
    (op : Op) (hop : op.target ≠ some []) :
    (exec H goodNet goodAdd op c1).1 = (exec H goodNet goodAdd op c2).1 ∧
    ∃ b' cs' M1' M2', Inv H lg b' cs' (exec H goodNet goodAdd op c1).2 M1' ∧ Inv H lg b' cs' (exec H goodNet goodAdd op c2).2 M2' := by
  have hM : M2 = M1 := by funext k; rw [h1.holds.map, h2.holds.map]
  subst hM
  obtain ⟨s1, t1, st1⟩ := c1
  obtain ⟨s2, t2, st2⟩ := c2
  obtain ⟨r1, hh⟩ := h1
  obtain ⟨r2, _⟩ := h2
  simp only at r1 r2
  -- `swapValue` on both
  have hsw : ∀ (key : Bytes) (hk : key ≠ []) (v1 v2 : Option Link), (∀ l, v1 = some l → NameOk (2 ^ lg) key l.name) →
      (∀ l, v2 = some l → NameOk (2 ^ lg) key l.name) → v1.map linkVal = v2.map linkVal →
      ∀ o1 o2, Shard.swapValue H goodNet (Shard.fuel H key) s1 0 key v1 t1 = o1 → Shard.swapValue H goodNet (Shard.fuel H key) s2 0 key v2 t2 = o2 →
      ((∃ e, o1.1 = .error e ∧ o2.1 = .error e ∧ RepS (2 ^ lg) (· ∈ st1) o1.2.1 (.node b cs) ∧ RepS (2 ^ lg) (· ∈ st2) o2.2.1 (.node b cs)) ∨
       ∃ l1 l2 cs', o1.1 = .ok l1 ∧ o2.1 = .ok l2 ∧ l1.map linkVal = l2.map linkVal ∧ Holds H lg cs' (M2.upd key (v1.map linkVal)) ∧
        RepS (2 ^ lg) (· ∈ st1) o1.2.1 (.node b cs') ∧ RepS (2 ^ lg) (· ∈ st2) o2.2.1 (.node b cs')) := by
    intro key hk v1 v2 hn1 hn2 hv o1 o2 e1 e2
    obtain ⟨x1, s1', t1'⟩ := o1
    obtain ⟨x2, s2', t2'⟩ := o2
    have a1 := swap_root hp goodNet r1 hh key hk v1 hn1 t1 e1
    have a2 := swap_root hp goodNet r2 hh key hk v2 hn2 t2 e2
    have hvn : v1 = none ↔ v2 = none := by cases v1 <;> cases v2 <;> simp_all
    rcases a1 with ⟨l1, cs1, p1, p2, p3, p4, p5, p6, _⟩ | ⟨p5, p⟩
    · rcases a2 with ⟨l2, cs2, q1, q2, q3, q4, q5, q6, _⟩ | ⟨q5, q⟩
      · right
        rw [hv] at p6
        rw [q6] at p6
        simp only [Except.ok.injEq, Prod.mk.injEq, true_and] at p6
        subst p6
        exact ⟨l1, l2, cs2, p1, q1, by rw [p2, q2], p4, p5, q5⟩
      · exfalso
        rcases q with ⟨_, q1, q2, k', q3, q4, q5⟩ | ⟨_, q1, q2⟩ | ⟨_, q1⟩
        · obtain ⟨j, _, hj, hne⟩ := wf_sep (levels lg) 0 anyKey cs1 key k' p4.wf
            (by rw [← p4.map, NMap.upd, if_pos rfl]; intro h; exact q2 (hvn.mp (by simpa using h)))
            (by rw [← p4.map, NMap.upd, if_neg q4]; exact q3) (fun h => q4 h.symm)
          exact hne ((collide_iff hp key k').mpr q5 j (by omega))
        · exact p3 (hvn.mpr q2) q1
        · exact noFetchFail _ _ _ q1
    · rcases a2 with ⟨l2, cs2, q1, q2, q3, q4, q5, q6, _⟩ | ⟨q5, q⟩
      · exfalso
        rcases p with ⟨_, p1, p2, k', p3, p4, p5⟩ | ⟨_, p1, p2⟩ | ⟨_, p1⟩
        · obtain ⟨j, _, hj, hne⟩ := wf_sep (levels lg) 0 anyKey cs2 key k' q4.wf
            (by rw [← q4.map, NMap.upd, if_pos rfl]; intro h; exact p2 (hvn.mpr (by simpa using h)))
            (by rw [← q4.map, NMap.upd, if_neg p4]; exact p3) (fun h => p4 h.symm)
          exact hne ((collide_iff hp key k').mpr p5 j (by omega))
        · exact q3 (hvn.mp p2) p1
        · exact noFetchFail _ _ _ p1
      · left
        rcases p with ⟨p1, _, p2, _⟩ | ⟨p1, _, p2⟩ | ⟨_, p1⟩
        · rcases q with ⟨q1, _, q2, _⟩ | ⟨q1, _, q2⟩ | ⟨_, q1⟩
          · exact ⟨_, p1, q1, p5, q5⟩
          · exact absurd (hvn.mpr q2) p2
          · exact absurd q1 (noFetchFail _ _ _)
        · rcases q with ⟨q1, _, q2, _⟩ | ⟨q1, _, q2⟩ | ⟨_, q1⟩
          · exact absurd (hvn.mp p2) q2
          · exact ⟨_, p1, q1, p5, q5⟩
          · exact absurd q1 (noFetchFail _ _ _)
        · exact absurd p1 (noFetchFail _ _ _)
  have hm1 : ∀ (nd x : Node), x ∈ st1 → x ∈ nd :: st1 := fun nd x hx => by simp [hx]
  have hm2 : ∀ (nd x : Node), x ∈ st2 → x ∈ nd :: st2 := fun nd x hx => by simp [hx]
  cases op with
  | set name nd =>
    have hn : name ≠ [] := fun h => hop (by rw [h]; rfl)
    simp only [exec, Shard.swap, goodAdd, Bool.false_eq_true, if_false]
    generalize e1 : Shard.swapValue H goodNet (Shard.fuel H name) s1 0 name (some (makeLink (linkNamePrefix s1.size 0 ++ name) nd)) t1 = o1
    generalize e2 : Shard.swapValue H goodNet (Shard.fuel H name) s2 0 name (some (makeLink (linkNamePrefix s2.size 0 ++ name) nd)) t2 = o2
    have := hsw name hn (some (makeLink (linkNamePrefix s1.size 0 ++ name) nd)) (some (makeLink (linkNamePrefix s2.size 0 ++ name) nd))
      (by rintro l ⟨⟩; exact root_name hp r1 name) (by rintro l ⟨⟩; exact root_name hp r2 name) (by rfl) o1 o2 e1 e2
    obtain ⟨x1, s1', t1'⟩ := o1
    obtain ⟨x2, s2', t2'⟩ := o2
    rcases this with ⟨e, h1, h2, h3, h4⟩ | ⟨l1, l2, cs', h1, h2, h3, h4, h5, h6⟩
    · simp only at h1 h2; subst h1; subst h2
      exact ⟨rfl, b, cs, M2, M2, ⟨RepS.mono (hm1 nd) _ _ h3, hh⟩, ⟨RepS.mono (hm2 nd) _ _ h4, hh⟩⟩
    · simp only at h1 h2; subst h1; subst h2
      exact ⟨rfl, b, cs', _, _, ⟨RepS.mono (hm1 nd) _ _ h5, h4⟩, ⟨RepS.mono (hm2 nd) _ _ h6, h4⟩⟩
  | swap name nd =>
    have hn : name ≠ [] := fun h => hop (by rw [h]; rfl)
    simp only [exec, Shard.swap, goodAdd, Bool.false_eq_true, if_false]
    generalize e1 : Shard.swapValue H goodNet (Shard.fuel H name) s1 0 name (some (makeLink (linkNamePrefix s1.size 0 ++ name) nd)) t1 = o1
    generalize e2 : Shard.swapValue H goodNet (Shard.fuel H name) s2 0 name (some (makeLink (linkNamePrefix s2.size 0 ++ name) nd)) t2 = o2
    have := hsw name hn (some (makeLink (linkNamePrefix s1.size 0 ++ name) nd)) (some (makeLink (linkNamePrefix s2.size 0 ++ name) nd))
      (by rintro l ⟨⟩; exact root_name hp r1 name) (by rintro l ⟨⟩; exact root_name hp r2 name) (by rfl) o1 o2 e1 e2
    obtain ⟨x1, s1', t1'⟩ := o1
    obtain ⟨x2, s2', t2'⟩ := o2
    rcases this with ⟨e, h1, h2, h3, h4⟩ | ⟨l1, l2, cs', h1, h2, h3, h4, h5, h6⟩
    · simp only at h1 h2; subst h1; subst h2
      exact ⟨rfl, b, cs, M2, M2, ⟨RepS.mono (hm1 nd) _ _ h3, hh⟩, ⟨RepS.mono (hm2 nd) _ _ h4, hh⟩⟩
    · simp only at h1 h2; subst h1; subst h2
      exact ⟨by dsimp only; rw [h3], b, cs', _, _, ⟨RepS.mono (hm1 nd) _ _ h5, h4⟩, ⟨RepS.mono (hm2 nd) _ _ h6, h4⟩⟩
  | setLink name l =>
    have hn : name ≠ [] := fun h => hop (by rw [h]; rfl)
    simp only [exec, Shard.setLinkOp]
    generalize e1 : Shard.swapValue H goodNet (Shard.fuel H name) s1 0 name (some (Link.rename l (linkNamePrefix s1.size 0 ++ name))) t1 = o1
    generalize e2 : Shard.swapValue H goodNet (Shard.fuel H name) s2 0 name (some (Link.rename l (linkNamePrefix s2.size 0 ++ name))) t2 = o2
    have := hsw name hn (some (Link.rename l (linkNamePrefix s1.size 0 ++ name))) (some (Link.rename l (linkNamePrefix s2.size 0 ++ name)))
      (by rintro l ⟨⟩; exact root_name hp r1 name) (by rintro l ⟨⟩; exact root_name hp r2 name) (by rfl) o1 o2 e1 e2
    obtain ⟨x1, s1', t1'⟩ := o1
    obtain ⟨x2, s2', t2'⟩ := o2
    rcases this with ⟨e, h1, h2, h3, h4⟩ | ⟨l1, l2, cs', h1, h2, h3, h4, h5, h6⟩
    · simp only at h1 h2; subst h1; subst h2
      exact ⟨rfl, b, cs, M2, M2, ⟨h3, hh⟩, ⟨h4, hh⟩⟩
    · simp only at h1 h2; subst h1; subst h2
      exact ⟨rfl, b, cs', _, _, ⟨h5, h4⟩, ⟨h6, h4⟩⟩
  | remove name =>
    have hn : name ≠ [] := fun h => hop (by rw [h]; rfl)
    simp only [exec, Shard.take]
    generalize e1 : Shard.swapValue H goodNet (Shard.fuel H name) s1 0 name none t1 = o1
    generalize e2 : Shard.swapValue H goodNet (Shard.fuel H name) s2 0 name none t2 = o2
    have := hsw name hn none none (by simp) (by simp) (by rfl) o1 o2 e1 e2
    obtain ⟨x1, s1', t1'⟩ := o1
    obtain ⟨x2, s2', t2'⟩ := o2
    rcases this with ⟨e, h1, h2, h3, h4⟩ | ⟨l1, l2, cs', h1, h2, h3, h4, h5, h6⟩
    · simp only at h1 h2; subst h1; subst h2
      exact ⟨rfl, b, cs, M2, M2, ⟨h3, hh⟩, ⟨h4, hh⟩⟩
    · simp only at h1 h2; subst h1; subst h2
      exact ⟨rfl, b, cs', _, _, ⟨h5, h4⟩, ⟨h6, h4⟩⟩
  | take name =>
    have hn : name ≠ [] := fun h => hop (by rw [h]; rfl)
    simp only [exec, Shard.take]
    generalize e1 : Shard.swapValue H goodNet (Shard.fuel H name) s1 0 name none t1 = o1
    generalize e2 : Shard.swapValue H goodNet (Shard.fuel H name) s2 0 name none t2 = o2
    have := hsw name hn none none (by simp) (by simp) (by rfl) o1 o2 e1 e2
    obtain ⟨x1, s1', t1'⟩ := o1
    obtain ⟨x2, s2', t2'⟩ := o2
    rcases this with ⟨e, h1, h2, h3, h4⟩ | ⟨l1, l2, cs', h1, h2, h3, h4, h5, h6⟩
    · simp only at h1 h2; subst h1; subst h2
      exact ⟨rfl, b, cs, M2, M2, ⟨h3, hh⟩, ⟨h4, hh⟩⟩
    · simp only at h1 h2; subst h1; subst h2
      exact ⟨by dsimp only; rw [h3], b, cs', _, _, ⟨h5, h4⟩, ⟨h6, h4⟩⟩
  | find name =>
    have a1 := get_sim hp goodNet (levels lg) 0 anyKey b cs s1 name t1 (Shard.fuel H name) (by omega) hh.wf r1 (fuel_ok hp name)
    have a2 := get_sim hp goodNet (levels lg) 0 anyKey b cs s2 name t2 (Shard.fuel H name) (by omega) hh.wf r2 (fuel_ok hp name)
    rw [Nat.zero_mul] at a1 a2
    simp only [exec, Shard.find]
    generalize Shard.getValue H goodNet (Shard.fuel H name) s1 0 name t1 = o1 at a1 ⊢
    generalize Shard.getValue H goodNet (Shard.fuel H name) s2 0 name t2 = o2 at a2 ⊢
    generalize tfind (hix H lg) (levels lg) 0 cs name = m at a1 a2
    cases a1 with
    | ok hl1 hr1 ht1 =>
      cases a2 with
      | ok hl2 hr2 ht2 => exact ⟨by show Res.val (lval _) = Res.val (lval _); rw [hl1, hl2], b, cs, M2, M2, ⟨hr1, hh⟩, ⟨hr2, hh⟩⟩
      | net _ hf => exact absurd hf (noFetchFail _ _ _)
    | err hr1 ht1 =>
      cases a2 with
      | err hr2 ht2 => exact ⟨rfl, b, cs, M2, M2, ⟨hr1, hh⟩, ⟨hr2, hh⟩⟩
      | net _ hf => exact absurd hf (noFetchFail _ _ _)
    | net _ hf => exact absurd hf (noFetchFail _ _ _)
  | forEach cb =>
    have a1 := forEach_sim hp goodNet cb s1.depth s1 b cs (levels lg) 0 anyKey { out := [], t := t1 } hh.wf r1 (depth_rep _ _ r1)
    have a2 := forEach_sim hp goodNet cb s2.depth s2 b cs (levels lg) 0 anyKey { out := [], t := t2 } hh.wf r2 (depth_rep _ _ r2)
    simp only [exec, Shard.forEachLink]
    have hd := each_det (st := { out := [], t := t1 }) (st' := { out := [], t := t2 }) rfl a1.2 a2.2 (fun _ _ => rfl)
    generalize forEachF goodNet cb s1.depth s1 { out := [], t := t1 } = o1 at a1 hd ⊢
    generalize forEachF goodNet cb s2.depth s2 { out := [], t := t2 } = o2 at a2 hd ⊢
    obtain ⟨e1, s1', x1⟩ := o1
    obtain ⟨e2, s2', x2⟩ := o2
    simp only at hd
    exact ⟨by simp only [hd.1, hd.2], b, cs, M2, M2, ⟨a1.1, hh⟩, ⟨a2.1, hh⟩⟩
  | node =>
    have a1 := toNode_sim hp goodAdd (levels lg + 1) s1 b cs r1 ⟨_, _, _, hh.wf, by omega⟩ st1
    have a2 := toNode_sim hp goodAdd (levels lg + 1) s2 b cs r2 ⟨_, _, _, hh.wf, by omega⟩ st2
    simp only [exec]
    generalize Shard.toNode goodAdd s1 st1 = o1 at a1 ⊢
    generalize Shard.toNode goodAdd s2 st2 = o2 at a2 ⊢
    obtain ⟨x1, st1'⟩ := o1
    obtain ⟨x2, st2'⟩ := o2
    obtain ⟨⟨ext1, he1, _⟩, a1⟩ := a1
    obtain ⟨⟨ext2, he2, _⟩, a2⟩ := a2
    simp only at he1 he2 a1 a2
    have a1 := a1.resolve_left (fun h => by simp [goodAdd] at h)
    have a2 := a2.resolve_left (fun h => by simp [goodAdd] at h)
    obtain ⟨rfl, g1⟩ := a1
    obtain ⟨rfl, g2⟩ := a2
    exact ⟨rfl, b, cs, M2, M2, ⟨RepS.mono (fun x hx => by dsimp only; rw [he1]; simp [hx]) _ _ r1, hh⟩, ⟨RepS.mono (fun x hx => by dsimp only; rw [he2]; simp [hx]) _ _ r2, hh⟩⟩
  | reload =>
    have a1 := toNode_sim hp goodAdd (levels lg + 1) s1 b cs r1 ⟨_, _, _, hh.wf, by omega⟩ st1
    have a2 := toNode_sim hp goodAdd (levels lg + 1) s2 b cs r2 ⟨_, _, _, hh.wf, by omega⟩ st2
    simp only [exec]
    generalize Shard.toNode goodAdd s1 st1 = o1 at a1 ⊢
    generalize Shard.toNode goodAdd s2 st2 = o2 at a2 ⊢
    obtain ⟨x1, st1'⟩ := o1
    obtain ⟨x2, st2'⟩ := o2
    obtain ⟨⟨ext1, he1, _⟩, a1⟩ := a1
    obtain ⟨⟨ext2, he2, _⟩, a2⟩ := a2
    simp only at he1 he2 a1 a2
    have a1 := a1.resolve_left (fun h => by simp [goodAdd] at h)
    have a2 := a2.resolve_left (fun h => by simp [goodAdd] at h)
    obtain ⟨rfl, g1⟩ := a1
    obtain ⟨rfl, g2⟩ := a2
    obtain ⟨s', hl, hrep⟩ := repS_load (A := fun x => x ∈ st1') hp.valid (wf_idx hh.wf) (b := b)
      (fun x hx => (g1 x hx).mono (fun x hx => hx.elim (fun h => by rw [he1]; simp [h]) id))
    obtain ⟨s'', hl', hrep'⟩ := repS_load (A := fun x => x ∈ st2') hp.valid (wf_idx hh.wf) (b := b)
      (fun x hx => (g2 x hx).mono (fun x hx => hx.elim (fun h => by rw [he2]; simp [h]) id))
    rw [hl] at hl'
    cases hl'
    simp only [hl]
    exact ⟨trivial, b, cs, M2, M2, ⟨hrep, hh⟩, ⟨hrep', hh⟩⟩
  | setCidBuilder bd =>
    refine ⟨rfl, pbBuilder bd, cs, M2, M2, ⟨?_, hh⟩, ⟨?_, hh⟩⟩
    · obtain ⟨h1, h2, h3, h4, h5, h6⟩ := repS_node.mp r1
      cases s1
      simp only [exec, Shard.setCidBuilder]
      rw [repS_node]
      exact ⟨h1, h2, h3, rfl, h5, h6⟩
    · obtain ⟨h1, h2, h3, h4, h5, h6⟩ := repS_node.mp r2
      cases s2
      simp only [exec, Shard.setCidBuilder]
      rw [repS_node]
      exact ⟨h1, h2, h3, rfl, h5, h6⟩

theorem results_det (hp : HP H lg) : ∀ (ops : List Op) {b : Builder} {cs : List Kid} {c1 c2 : Cfg} {M1 M2 : NMap}, Inv H lg b cs c1 M1 → Inv H lg b cs c2 M2 →
    NoEmptyName ops → results H goodNet goodAdd ops c1 = results H goodNet goodAdd ops c2
  | [], _, _, _, _, _, _, _, _, _ => rfl
  | op :: ops, b, cs, c1, c2, M1, M2, h1, h2, hn => by
    obtain ⟨h3, b', cs', M1', M2', h4, h5⟩ := exec_det hp h1 h2 op (hn op (by simp))
    rw [results, results, h3, results_det hp ops h4 h5 (fun o ho => hn o (by simp [ho]))]

end Unixfs.Hamt
