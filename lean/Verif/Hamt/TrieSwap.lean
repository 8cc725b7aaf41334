import Verif.Hamt.Trie

/-! # `tswap` is insertion and removal on the finite map `tfind`

The definitions in this file belong to proofs; they model no code.
-/

namespace Unixfs.Hamt

variable {ix : Bytes → Nat → Nat} {size : Nat}

/-- Lookup in a child at depth `d`, with `n` levels below it. -/
def tsub (ix : Bytes → Nat → Nat) (n d : Nat) (k : Bytes) : Trie → Option Val
  | .leaf k' v => if k' = k then some v else none
  | .node _ cs => tfind ix n d cs k

theorem tfind_succ (n d : Nat) (cs : List Kid) (k : Bytes) : tfind ix (n + 1) d cs k = (kget cs (ix k d)).bind (tsub ix n (d + 1) k) := by
  rw [tfind]
  cases kget cs (ix k d) with
  | none => rfl
  | some t => cases t <;> rfl

theorem tfind_kset {n d i : Nat} {cs : List Kid} {t : Trie} (hs : Sorted cs) (hi : kget cs i ≠ none) (k : Bytes) :
    tfind ix (n + 1) d (kset cs i t) k = if ix k d = i then tsub ix n (d + 1) k t else tfind ix (n + 1) d cs k := by
  rw [tfind_succ, tfind_succ, kget_kset hs (by by_contra h; exact hi (kget_none_iff.mpr h))]
  split <;> rfl

theorem tfind_kins {n d i : Nat} {cs : List Kid} {t : Trie} (hs : Sorted cs) (k : Bytes) :
    tfind ix (n + 1) d (kins cs i t) k = if ix k d = i then tsub ix n (d + 1) k t else tfind ix (n + 1) d cs k := by
  rw [tfind_succ, tfind_succ, kget_kins hs]
  split <;> rfl

theorem tfind_kdel {n d i : Nat} {cs : List Kid} (hs : Sorted cs) (k : Bytes) :
    tfind ix (n + 1) d (kdel cs i) k = if ix k d = i then none else tfind ix (n + 1) d cs k := by
  rw [tfind_succ, tfind_succ, kget_kdel hs]
  split <;> rfl

/-- A trie fits at index `i` of depth `d`. -/
def WFt (ix : Bytes → Nat → Nat) (size n d : Nat) (P : Bytes → Prop) (i : Nat) : Trie → Prop
  | .leaf k _ => P k ∧ ix k d = i ∧ k ≠ []
  | .node _ cs => WF ix size n (d + 1) (fun k => P k ∧ ix k d = i) cs

theorem WF.get {n d i : Nat} {P : Bytes → Prop} {cs : List Kid} {t : Trie} (h : WF ix size (n + 1) d P cs) (hg : kget cs i = some t) :
    i < size ∧ WFt ix size n d P i t := by
  have := h.2 _ (kget_mem hg)
  cases t <;> exact this

theorem wf_of {n d : Nat} {P : Bytes → Prop} {cs : List Kid} (hs : Sorted cs) (h : ∀ i t, kget cs i = some t → i < size ∧ WFt ix size n d P i t) :
    WF ix size (n + 1) d P cs := by
  refine ⟨hs, fun c hc => ?_⟩
  have := h c.idx c.trie (mem_kget hs (by simpa using hc))
  refine ⟨this.1, ?_⟩
  have h2 := this.2
  cases ht : c.trie <;> rw [ht] at h2 <;> exact h2

theorem wf_kset {n d i : Nat} {P : Bytes → Prop} {cs : List Kid} {t : Trie} (h : WF ix size (n + 1) d P cs) (hi : i < size)
    (hg : kget cs i ≠ none) (ht : WFt ix size n d P i t) : WF ix size (n + 1) d P (kset cs i t) := by
  apply wf_of (sorted_kset h.1)
  intro j t' hj
  rw [kget_kset h.1 (by by_contra h; exact hg (kget_none_iff.mpr h))] at hj
  split at hj
  · rename_i e; subst e; cases hj; exact ⟨hi, ht⟩
  · exact h.get hj

theorem wf_kins {n d i : Nat} {P : Bytes → Prop} {cs : List Kid} {t : Trie} (h : WF ix size (n + 1) d P cs) (hi : i < size)
    (ht : WFt ix size n d P i t) : WF ix size (n + 1) d P (kins cs i t) := by
  apply wf_of (sorted_kins h.1)
  intro j t' hj
  rw [kget_kins h.1] at hj
  split at hj
  · rename_i e; subst e; cases hj; exact ⟨hi, ht⟩
  · exact h.get hj

theorem wf_kdel {n d i : Nat} {P : Bytes → Prop} {cs : List Kid} (h : WF ix size (n + 1) d P cs) : WF ix size (n + 1) d P (kdel cs i) := by
  apply wf_of (sorted_kdel h.1)
  intro j t' hj
  rw [kget_kdel h.1] at hj
  split at hj
  · cases hj
  · exact h.get hj

/-- What setting (`some`) or removing (`none`) `key` must do to the map `f`, giving `f'`. -/
structure SwapOk (f f' : Bytes → Option Val) (key : Bytes) (value old : Option Val) : Prop where
  old_eq : old = f key
  new_eq : ∀ k, f' k = if k = key then value else f k
  removed : value = none → old ≠ none

/-- When it must fail. -/
def SwapErr (ix : Bytes → Nat → Nat) (n d : Nat) (f : Bytes → Option Val) (key : Bytes) (value : Option Val) (e : Err) : Prop :=
  f key = none ∧ ((e = .tooDeep ∧ value ≠ none ∧ ∃ k', k' ≠ key ∧ f k' ≠ none ∧ ∀ j, d ≤ j → j < d + n → ix k' j = ix key j) ∨
    (e = .notExist ∧ value = none))

/-- A child list that stays a shard of its own: neither empty nor a single value. -/
def NC (cs : List Kid) : Prop := cs ≠ [] ∧ ∀ j k v, cs ≠ [.mk j (.leaf k v)]

theorem tcollapse_cases (cs : List Kid) (i : Nat) (b : Builder) (cs' : List Kid) :
    (cs' = [] ∧ tcollapse cs i b cs' = kdel cs i) ∨
    (∃ j k v, cs' = [.mk j (.leaf k v)] ∧ tcollapse cs i b cs' = kset cs i (.leaf k v)) ∨
    (tcollapse cs i b cs' = kset cs i (.node b cs') ∧ NC cs') := by
  match cs' with
  | [] => exact .inl ⟨rfl, rfl⟩
  | [.mk j (.leaf k v)] => exact .inr (.inl ⟨j, k, v, rfl, rfl⟩)
  | [.mk j (.node b' cs'')] => exact .inr (.inr ⟨rfl, by simp [NC]⟩)
  | c :: c' :: r => exact .inr (.inr ⟨by cases c with | mk j t => cases t <;> rfl, by simp [NC]⟩)

theorem tswap_spec (hix : ∀ k d, ix k d < size) (n : Nat) : ∀ (d : Nat) (P : Bytes → Prop) (b : Builder) (cs : List Kid) (key : Bytes) (value : Option Val),
    WF ix size n d P cs → P key → key ≠ [] →
    match tswap ix n d b cs key value with
    | .ok (old, cs') => WF ix size n d P cs' ∧ SwapOk (tfind ix n d cs) (tfind ix n d cs') key value old
    | .error e => SwapErr ix n d (tfind ix n d cs) key value e := by
  induction n with
  | zero => intro d P b cs key value h; exact h.elim
  | succ n ih =>
    intro d P b cs key value h hP hk
    rw [tswap.eq_def]; dsimp only
    have hi := hix key d
    cases hg : kget cs (ix key d) with
    | none =>
      have hf : ∀ k, ix k d = ix key d → tfind ix (n + 1) d cs k = none := by
        intro k he; rw [tfind_succ, he, hg]; rfl
      cases value with
      | none => exact ⟨hf key rfl, .inr ⟨rfl, rfl⟩⟩
      | some v =>
        refine ⟨wf_kins h hi ⟨hP, rfl, hk⟩, ?_⟩
        refine { old_eq := (hf key rfl).symm, new_eq := fun k => ?_, removed := by simp }
        rw [tfind_kins h.1]
        by_cases he : ix k d = ix key d
        · rw [if_pos he, hf k he, tsub]
          simp only [eq_comm]
        · rw [if_neg he, if_neg (by rintro rfl; exact he rfl)]
    | some t =>
      have hgn : kget cs (ix key d) ≠ none := by rw [hg]; simp
      have hf : ∀ k, ix k d = ix key d → tfind ix (n + 1) d cs k = tsub ix n (d + 1) k t := by
        intro k he; rw [tfind_succ, he, hg]; rfl
      have hne : ∀ {k : Bytes}, ¬ ix k d = ix key d → k ≠ key := by rintro k he rfl; exact he rfl
      cases t with
      | leaf k0 v0 =>
        obtain ⟨_, hP0, hi0, hk0⟩ := h.leaf hg
        by_cases hkk : k0 = key
        · subst hkk
          simp only [if_pos]
          cases value with
          | none =>
            refine ⟨wf_kdel h, ?_⟩
            refine { old_eq := by rw [hf _ rfl]; simp [tsub], new_eq := fun k => ?_, removed := by simp }
            rw [tfind_kdel h.1]
            by_cases he : ix k d = ix k0 d
            · rw [if_pos he, hf k he, tsub]
              by_cases hkk : k = k0
              · simp [hkk]
              · rw [if_neg hkk, if_neg (fun h => hkk h.symm)]
            · rw [if_neg he, if_neg (hne he)]
          | some v =>
            refine ⟨wf_kset h hi hgn ⟨hP, rfl, hk⟩, ?_⟩
            refine { old_eq := by rw [hf _ rfl]; simp [tsub], new_eq := fun k => ?_, removed := by simp }
            rw [tfind_kset h.1 hgn]
            by_cases he : ix k d = ix k0 d
            · rw [if_pos he, hf k he, tsub, tsub]
              by_cases hkk : k = k0
              · simp [hkk]
              · rw [if_neg hkk, if_neg (fun h => hkk h.symm), if_neg (fun h => hkk h.symm)]
            · rw [if_neg he, if_neg (hne he)]
        · simp only [if_neg hkk]
          have hfk : tfind ix (n + 1) d cs key = none := by rw [hf key rfl, tsub, if_neg hkk]
          have hfk0 : tfind ix (n + 1) d cs k0 = some v0 := by rw [hf k0 hi0, tsub, if_pos rfl]
          cases value with
          | none => exact ⟨hfk, .inr ⟨rfl, rfl⟩⟩
          | some v =>
            cases n with
            | zero =>
              simp only [tswap]
              refine ⟨hfk, .inl ⟨rfl, by simp, k0, hkk, by rw [hfk0]; simp, ?_⟩⟩
              intro j h1 h2
              have : j = d := by omega
              subst this; exact hi0
            | succ n =>
              have s1 := ih (d + 1) (fun k => P k ∧ ix k d = ix key d) b [] key (some v) (wf_nil n _ _) ⟨hP, rfl⟩ hk
              cases h1 : tswap ix (n + 1) (d + 1) b [] key (some v) with
              | error e =>
                rw [h1] at s1
                obtain ⟨_, ⟨_, _, k', _, hk', _⟩ | ⟨_, h⟩⟩ := s1
                · exact absurd (tfind_nil _ _ _) hk'
                · cases h
              | ok p1 =>
                obtain ⟨o1, c1⟩ := p1
                rw [h1] at s1
                obtain ⟨w1, q1⟩ := s1
                have f1 : ∀ k, tfind ix (n + 1) (d + 1) c1 k = if k = key then some v else none := by
                  intro k; rw [q1.new_eq, tfind_nil]
                have s2 := ih (d + 1) (fun k => P k ∧ ix k d = ix key d) b c1 k0 (some v0) w1 ⟨hP0, hi0⟩ hk0
                cases h2 : tswap ix (n + 1) (d + 1) b c1 k0 (some v0) with
                | error e =>
                  rw [h2] at s2
                  obtain ⟨_, ⟨he, _, k', _, hk', hj⟩ | ⟨_, h⟩⟩ := s2
                  · rw [f1] at hk'
                    have hkey : k' = key := by
                      by_contra h; exact hk' (if_neg h)
                    subst hkey
                    simp only [h1, h2]
                    refine ⟨hfk, .inl ⟨he, by simp, k0, hkk, by rw [hfk0]; simp, ?_⟩⟩
                    intro j h1 h2
                    by_cases hjd : j = d
                    · subst hjd; exact hi0
                    · exact (hj j (by omega) (by omega)).symm
                  · cases h
                | ok p2 =>
                  obtain ⟨o2, c2⟩ := p2
                  rw [h2] at s2
                  obtain ⟨w2, q2⟩ := s2
                  simp only [h1, h2]
                  refine ⟨wf_kset h hi hgn w2, ?_⟩
                  refine { old_eq := hfk.symm, new_eq := fun k => ?_, removed := by simp }
                  rw [tfind_kset h.1 hgn]
                  by_cases he : ix k d = ix key d
                  · rw [if_pos he, hf k he, tsub, tsub, q2.new_eq, f1]
                    by_cases e1 : k = k0
                    · subst e1; rw [if_pos rfl, if_neg hkk, if_pos rfl]
                    · have e2 : ¬ k0 = k := fun h => e1 h.symm
                      simp only [if_neg e1, if_neg e2]
                  · rw [if_neg he, if_neg (hne he)]
      | node b' cs' =>
        obtain ⟨_, hw⟩ := h.node hg
        have s := ih (d + 1) (fun k => P k ∧ ix k d = ix key d) b' cs' key value hw ⟨hP, rfl⟩ hk
        dsimp only
        cases hr : tswap ix n (d + 1) b' cs' key value with
        | error e =>
          rw [hr] at s
          dsimp only
          obtain ⟨s1, s2⟩ := s
          refine ⟨by rw [hf key rfl]; exact s1, ?_⟩
          rcases s2 with ⟨he, hv, k', hk', hf', hj⟩ | s2
          · obtain ⟨v', hv'⟩ := Option.ne_none_iff_exists'.mp hf'
            have hkp := (tfind_some hw hv').1
            refine .inl ⟨he, hv, k', hk', by rw [hf k' hkp.2]; exact hf', ?_⟩
            intro j h1 h2
            by_cases hjd : j = d
            · subst hjd; exact hkp.2
            · exact hj j (by omega) (by omega)
          · exact .inr s2
        | ok p =>
          obtain ⟨old, cs''⟩ := p
          rw [hr] at s
          obtain ⟨w, q⟩ := s
          have hold : old = tfind ix (n + 1) d cs key := by rw [hf key rfl]; exact q.old_eq
          have hgen : ∀ t', (∀ k, tsub ix n (d + 1) k t' = tfind ix n (d + 1) cs'' k) → ∀ k, tfind ix (n + 1) d (kset cs (ix key d) t') k =
              if k = key then value else tfind ix (n + 1) d cs k := by
            intro t' ht' k
            rw [tfind_kset h.1 hgn]
            by_cases he : ix k d = ix key d
            · rw [if_pos he, hf k he, ht', q.new_eq]; rfl
            · rw [if_neg he, if_neg (hne he)]
          cases value with
          | some v =>
            dsimp only
            exact ⟨wf_kset h hi hgn w, { old_eq := hold, new_eq := hgen _ (fun _ => rfl), removed := by simp }⟩
          | none =>
            dsimp only
            have hw3 : WF ix size (n + 1) d P (kset cs (ix key d) (.node b' cs'')) := wf_kset h hi hgn w
            have hgen3 := hgen (.node b' cs'') (fun _ => rfl)
            rcases tcollapse_cases cs (ix key d) b' cs'' with ⟨rfl, hc⟩ | ⟨j, k, v, rfl, hc⟩ | ⟨hc, _⟩ <;> rw [hc]
            · refine ⟨wf_kdel h, { old_eq := hold, new_eq := fun k => ?_, removed := q.removed }⟩
              rw [tfind_kdel h.1]
              by_cases he : ix k d = ix key d
              · have := q.new_eq k
                rw [tfind_nil] at this
                rw [if_pos he, hf k he]; exact this
              · rw [if_neg he, if_neg (hne he)]
            · cases n with
              | zero => exact w.elim
              | succ n =>
                have hl := w.leaf (i := j) (k := k) (v := v) (by simp [kget])
                refine ⟨wf_kset h hi hgn ⟨hl.2.1.1, hl.2.1.2, hl.2.2.2⟩, { old_eq := hold, new_eq := hgen _ (fun k' => ?_), removed := q.removed }⟩
                rw [tsub, tfind_succ]
                by_cases e1 : k = k'
                · subst e1
                  rw [if_pos rfl, hl.2.2.1]
                  simp [kget, tsub]
                · rw [if_neg e1]
                  by_cases e2 : j = ix k' (d + 1)
                  · simp [kget, e2, tsub, e1]
                  · simp [kget, e2]
            · exact ⟨hw3, { old_eq := hold, new_eq := hgen3, removed := q.removed }⟩

/-- Distinct keys in a well-formed trie have different indices somewhere. -/
theorem wf_sep (n : Nat) : ∀ (d : Nat) (P : Bytes → Prop) (cs : List Kid) (k k' : Bytes), WF ix size n d P cs →
    tfind ix n d cs k ≠ none → tfind ix n d cs k' ≠ none → k ≠ k' → ∃ j, d ≤ j ∧ j < d + n ∧ ix k j ≠ ix k' j := by
  induction n with
  | zero => intro d P cs k k' h; exact h.elim
  | succ n ih =>
    intro d P cs k k' h h1 h2 hne
    by_cases he : ix k d = ix k' d
    · rw [tfind_succ] at h1 h2
      rw [← he] at h2
      cases hg : kget cs (ix k d) with
      | none => rw [hg] at h1; simp at h1
      | some t =>
        rw [hg] at h1 h2
        simp only [Option.bind_some] at h1 h2
        cases t with
        | leaf k0 v0 =>
          rw [tsub] at h1 h2
          have e1 : k0 = k := by by_contra h; exact h1 (if_neg h)
          have e2 : k0 = k' := by by_contra h; exact h2 (if_neg h)
          exact absurd (e1.symm.trans e2) hne
        | node b cs' =>
          obtain ⟨j, j1, j2, j3⟩ := ih (d + 1) _ cs' k k' (h.node hg).2 h1 h2 hne
          exact ⟨j, by omega, by omega, j3⟩
    · exact ⟨d, by omega, by omega, he⟩

end Unixfs.Hamt
