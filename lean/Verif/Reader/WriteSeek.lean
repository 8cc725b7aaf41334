import Verif.Reader.Lemmas

/-! # Helper lemmas: `WriteTo` and `Seek`

The definitions in this file belong to proofs; they model no code.
-/

namespace Unixfs.Reader
open Unixfs Unixfs.Spec

structure IterWrite (net : Net) (wr : Writer) (root : Node) (w : WS TS) (bs : Bytes) (r : WalkEnd) (w' : WS TS) : Prop where
  mk ::
  ex : ∃ (got b : Bytes) (m : Nat), bs = got ++ (w'.s.cur.getD [] ++ b) ∧ Rem root w'.path b ∧ w'.s.out = w.s.out ++ got ∧
    w'.s.offset = w.s.offset + m ∧ m ≤ got.length ∧ (r ≠ .err .writeFailed → m = got.length) ∧
    (r = .endOfDag → b = [] ∧ w'.s.cur = none)
  todo_le : todo root w'.path ≤ todo root w.path
  tick_le : w.tick ≤ w'.tick
  notPaused : r ≠ .paused
  err : ∀ e, r = .err e → (e = .notFound ∧ ∃ t x, w.tick ≤ t ∧ net t x = false) ∨ (e = .writeFailed ∧ ∃ i, wr i ≠ none)

theorem writeBuf_some (wr : Writer) (s : TS) (d : Bytes) (q : Nat) (hq : s.offset = q) (hlt : q + d.length < 2 ^ 63) :
    (TS.writeBuf wr { s with cur := some d } =
      (true, { cur := none, offset := s.offset + d.length, out := s.out ++ d, calls := (TS.writeBuf wr { s with cur := some d }).2.calls })) ∨
    (∃ m, wr s.calls = some m ∧ TS.writeBuf wr { s with cur := some d } =
      (false, { cur := some (d.drop m), offset := s.offset, out := s.out ++ d.take m, calls := s.calls + 1 })) := by
  simp only [TS.writeBuf, Option.getD_some]
  by_cases hd : d = []
  · left; simp [hd]
  · simp only [hd, if_false]
    cases hw : wr s.calls with
    | none => left; simp only; rw [i64_id (by omega) (by omega)]
    | some m => right; exact ⟨m, rfl, rfl⟩

theorem iterate_write (net : Net) (wr : Writer) (root : Node) : ∀ (k : Nat) (w : WS TS) (bs : Bytes) (q : Nat), Rem root w.path bs → w.s.cur = none →
    2 * todo root w.path + 1 ≤ k → w.s.offset = q → q + bs.length < 2 ^ 63 →
    ∃ r w', iterate net root (writeVisitor wr) k w = (r, w') ∧ IterWrite net wr root w bs r w' := by
  intro k
  suffices H : ∀ (w : WS TS) (bs : Bytes) (q : Nat), Rem root w.path bs → w.s.cur = none →
      (2 * todo root w.path ≤ k ∧ (∀ f up, w.path = f :: up → f.idx < f.node.links.length) ∨ 2 * todo root w.path + 1 ≤ k) →
      w.s.offset = q → q + bs.length < 2 ^ 63 →
      ∃ r w', iterate net root (writeVisitor wr) k w = (r, w') ∧ IterWrite net wr root w bs r w' by
    intro w bs q h1 h2 h3 h4 h5; exact H w bs q h1 h2 (.inr h3) h4 h5
  induction k with
  | zero =>
    intro w bs q hr hc hk hq hlt
    exfalso
    rcases hk with ⟨hk, hf⟩ | hk
    · obtain ⟨path, tick, s⟩ := w
      cases path with
      | nil => simp only [todo] at hk; rw [count_links] at hk; omega
      | cons f up =>
        have := hf f up rfl
        simp only [todo] at hk
        rw [drop_eq_cons (List.getElem?_eq_getElem this), countL_cons, count_links] at hk
        omega
    · omega
  | succ k ih =>
    intro w bs q hr hc hk hq hlt
    rw [iterate]
    rcases down_cases net root (writeVisitor wr) w hr with ⟨f, up, hp, hn, hd⟩ | ⟨hx, hd⟩ | ⟨x, a, b, t, hx, hb, hbs, hcnt, ht, hd⟩
    · rw [hd]
      have hk' : 2 * todo root w.path ≤ k := by
        rcases hk with ⟨_, hf⟩ | hk
        · have := hf f up hp
          rw [List.getElem?_eq_none_iff] at hn; omega
        · omega
      rw [hp] at hr
      rcases climb_top root hr hn with ⟨p', h1, h2, h3, h4⟩ | ⟨p', h1, h2, h3, h4, h5⟩
      · simp only [hp, h1]
        obtain ⟨r, w', hi, hR⟩ := ih { w with path := p' } bs q h2 hc (.inl ⟨by rw [hp] at hk'; simpa [h3] using hk',
          by obtain ⟨f', up', h4, h4'⟩ := h4; intro g u hg; simp only [h4, List.cons.injEq] at hg; rw [← hg.1]; exact h4'⟩) hq hlt
        exact ⟨r, w', hi, hR.ex, by have := hR.todo_le; rw [hp, ← h3]; exact this, hR.tick_le, hR.notPaused, hR.err⟩
      · simp only [hp, h1]
        exact ⟨_, _, rfl, ⟨[], [], 0, by simp [h2, hc], h3, by simp, by simp, by simp, by simp, by simp [hc]⟩, by simp [h4], by simp, by simp, by simp⟩
    · rw [hd]
      refine ⟨_, _, rfl, ⟨[], bs, 0, by simp [hc], hr, by simp, by simp, by simp, by simp, by simp⟩, by simp, by simp, by simp, ?_⟩
      intro e he; simp only [WalkEnd.err.injEq] at he
      obtain ⟨y, hy⟩ := hx
      exact .inl ⟨he.symm, w.tick, y, Nat.le_refl _, hy⟩
    · rw [hd]
      have hk' : 2 * (x.count + todoUp w.path) ≤ k + 1 := by rw [hcnt]; omega
      have htv := todo_visit root x w.path
      by_cases hl : x.links = []
      · have hread := content_leaf hl hx
        have hla : q + a.length < 2 ^ 63 := by rw [hbs] at hlt; simp at hlt; omega
        rcases writeBuf_some wr w.s a q hq hla with hw | ⟨m, hwm, hw⟩
        · have hv : writeVisitor wr x w.s = (.cont, 0, { cur := none, offset := w.s.offset + a.length, out := w.s.out ++ a, calls := (TS.writeBuf wr { w.s with cur := some a }).2.calls }) := by
            simp only [writeVisitor, hl, ne_eq, not_true_eq_false, if_false, hread]
            rw [hw]
          simp only [visitChild, hv]
          obtain ⟨r, w', hi, hR⟩ := ih { path := ⟨x, 0⟩ :: w.path, tick := t, s := { cur := none, offset := w.s.offset + a.length, out := w.s.out ++ a, calls := _ } } b (q + a.length)
            (rem_leaf root hl hb) rfl (.inr (by show 2 * todo root (⟨x, 0⟩ :: w.path) + 1 ≤ k; omega)) (by simp [hq]) (by rw [hbs] at hlt; simp at hlt; omega)
          refine ⟨r, w', hi, ?_, by have := hR.todo_le; simp only at this; omega, by have := hR.tick_le; simp only at this; omega, hR.notPaused, ?_⟩
          · obtain ⟨got, b', m, h1, h2, h3, h4, h5, h6, h7⟩ := hR.ex
            refine ⟨a ++ got, b', a.length + m, by rw [hbs, h1]; simp, h2, by simp [h3], ?_, by simp; omega, ?_, h7⟩
            · simp only at h4; rw [h4]; push_cast; omega
            · intro hne; have := h6 hne; simp; omega
          · intro e he
            rcases hR.err e he with ⟨h1, t', y, h2, h3⟩ | h
            · exact .inl ⟨h1, t', y, by simp only at h2; omega, h3⟩
            · exact .inr h
        · have hv : writeVisitor wr x w.s = (.fail .writeFailed, 0, { cur := some (a.drop m), offset := w.s.offset, out := w.s.out ++ a.take m, calls := w.s.calls + 1 }) := by
            simp only [writeVisitor, hl, ne_eq, not_true_eq_false, if_false, hread]
            rw [hw]
          simp only [visitChild, hv]
          refine ⟨_, _, rfl, ⟨a.take m, b, 0, ?_, rem_leaf root hl hb, rfl, by simp, by simp, by simp, by simp⟩, ?_, ht, by simp, ?_⟩
          · simp [hbs, ← List.append_assoc]
          · show todo root (⟨x, 0⟩ :: w.path) ≤ _; omega
          · intro e he; simp only [WalkEnd.err.injEq] at he
            exact .inr ⟨he.symm, w.s.calls, by simp [hwm]⟩
      · have hv : writeVisitor wr x w.s = (.cont, 0, w.s) := by simp [writeVisitor, hl]
        simp only [visitChild, hv]
        obtain ⟨r, w', hi, hR⟩ := ih { path := ⟨x, 0⟩ :: w.path, tick := t, s := w.s } bs q
            (by rw [hbs]; exact rem_internal root hl hx hb) hc (.inr (by show 2 * todo root (⟨x, 0⟩ :: w.path) + 1 ≤ k; omega)) hq hlt
        refine ⟨r, w', hi, hR.ex, by have := hR.todo_le; simp only at this; omega, by have := hR.tick_le; simp only at this; omega, hR.notPaused, ?_⟩
        intro e he
        rcases hR.err e he with ⟨h1, t', y, h2, h3⟩ | h
        · exact .inl ⟨h1, t', y, by simp only at h2; omega, h3⟩
        · exact .inr h

/-! ### Seek -/

theorem contentLen_eq {n : Node} {a : Bytes} (h : content n = some a) : contentLen n = a.length := by simp [contentLen, h]

/-- What the loop of `Seek` does when there are as many sizes as links: skip the children whose
recorded size fits into `left`. The list is the recorded sizes from the active index on.
Used in specifications and proofs only. -/
def skipChildren : List UInt64 → Nat → Nat → Nat × Nat
  | [], i, left => (i, left)
  | s :: ss, i, left => if s.toNat > left then (i, left) else skipChildren ss (i + 1) (left - s.toNat)

theorem skipLoop_eq (bs : List UInt64) : ∀ (k i left : Nat), bs.length = i + k + 1 →
    skipLoop bs k i left = .ok (skipChildren (bs.drop i) i left) := by
  intro k
  induction k with
  | zero =>
    intro i left h
    have hi : i < bs.length := by omega
    unfold skipLoop
    rw [List.getElem?_eq_getElem hi, List.drop_eq_getElem_cons hi]
    have hn : bs.drop (i + 1) = [] := List.drop_eq_nil_of_le (by omega)
    simp only [skipChildren, hn]
    split <;> rfl
  | succ k ih =>
    intro i left h
    have hi : i < bs.length := by omega
    unfold skipLoop
    rw [List.getElem?_eq_getElem hi, List.drop_eq_getElem_cons hi]
    simp only [skipChildren]
    split
    · rfl
    · exact ih _ _ (by omega)

theorem skipLoop_all {bs : List UInt64} {n : Nat} (h : bs.length = n) (hn : n ≠ 0) (left : Nat) :
    skipLoop bs (n - 1) 0 left = .ok (skipChildren bs 0 left) := by
  rw [skipLoop_eq bs (n - 1) 0 left (by omega), List.drop_zero]

/-- Skipping children by their recorded sizes. -/
theorem skipChildren_spec : ∀ (ls : List Link) (c : Bytes) (i left : Nat), contentL ls = some c → c.length < 2 ^ 64 →
    ∃ j : Nat, j ≤ ls.length ∧ ∃ left' a, skipChildren (ls.map (fun l => UInt64.ofNat (contentLen l.target))) i left = (i + j, left') ∧
      left' ≤ left ∧ contentL (ls.drop j) = some a ∧ a = c.drop (left - left') ∧ left - left' ≤ c.length ∧
      (∀ l, ls[j]? = some l → left' < contentLen l.target) ∧ (j = ls.length → c.length ≤ left) := by
  intro ls
  induction ls with
  | nil =>
    intro c i left hc _
    simp only [contentL, Option.some.injEq] at hc
    refine ⟨0, Nat.le_refl _, left, [], by simp [skipChildren], Nat.le_refl _, by simp [contentL], by simp [← hc], by simp, by simp, by simp [← hc]⟩
  | cons l ls ih =>
    intro c i left hc hlt
    obtain ⟨x, y, hx, hy, hxy⟩ := contentL_cons _ _ hc
    have hsz : (UInt64.ofNat (contentLen l.target)).toNat = x.length := by
      rw [contentLen_eq hx, UInt64.toNat_ofNat']
      apply Nat.mod_eq_of_lt; rw [hxy] at hlt; simp at hlt; omega
    simp only [List.map_cons, skipChildren, hsz]
    by_cases hgt : x.length > left
    · refine ⟨0, Nat.zero_le _, left, c, by simp [hgt], Nat.le_refl _, by simpa using hc, by simp, by simp, ?_, by simp⟩
      intro l' hl'; simp only [List.getElem?_cons_zero, Option.some.injEq] at hl'
      rw [← hl', contentLen_eq hx]; exact hgt
    · obtain ⟨j, hj, left', a, h1, h2, h3, h4, h5, h6, h7⟩ := ih y (i + 1) (left - x.length) hy (by rw [hxy] at hlt; simp at hlt; omega)
      refine ⟨j + 1, by simpa using hj, left', a, ?_, by omega, by simpa using h3, ?_, ?_, ?_, ?_⟩
      · rw [if_neg hgt, h1]; simp; omega
      · have : left - left' = x.length + (left - x.length - left') := by omega
        rw [hxy, h4, this, ← List.drop_drop, List.drop_left]
      · rw [hxy]; simp; omega
      · intro l' hl'; exact h6 l' (by simpa using hl')
      · intro hl; have := h7 (by simpa using hl); rw [hxy]; simp; omega

theorem sizesTrueL_mem {ls : List Link} (h : SizesTrueL ls) {l : Link} (hl : l ∈ ls) : SizesTrue l.target := by
  induction ls with
  | nil => simp at hl
  | cons x ls ih =>
    obtain ⟨p, q, n⟩ := x
    rcases List.mem_cons.mp hl with rfl | hl
    · exact h.1
    · exact ih h.2 hl

theorem sizesTrue_links {n : Node} (h : SizesTrue n) : SizesTrueL n.links := by
  match n with
  | .raw .. => simp [Node.links, SizesTrueL]
  | .other _ => simp [Node.links, SizesTrueL]
  | .proto _ _ _ => simp only [SizesTrue] at h; obtain ⟨_, _, _, _, _, _, h⟩ := h; exact h

theorem countL_drop_le (ls : List Link) (i : Nat) : Link.countL (ls.drop i) ≤ Link.countL ls := by
  induction ls generalizing i with
  | nil => simp
  | cons l ls ih =>
    cases i with
    | zero => simp
    | succ i => rw [List.drop_succ_cons, countL_cons]; have := ih i; omega

/-- The visitor of `Seek` on a node with links. -/
theorem seekVisitor_internal {x : Node} (hs : SizesTrue x) (hl : x.links ≠ []) (s : SS) :
    seekVisitor x s = (.cont, (skipChildren (x.links.map (fun l => UInt64.ofNat (contentLen l.target))) 0 s.left).1,
      { s with left := (skipChildren (x.links.map (fun l => UInt64.ofNat (contentLen l.target))) 0 s.left).2 }) := by
  match x with
  | .raw .. => simp [Node.links] at hl
  | .other _ => simp [Node.links] at hl
  | .proto d ls b =>
    simp only [SizesTrue] at hs
    obtain ⟨m, hm, -, -, hb, -, -⟩ := hs
    have hn : (FSNode.mk m).numChildren = ls.length := by simp [FSNode.numChildren, hb]
    simp only [seekVisitor, hl, ne_eq, not_false_eq_true, if_true, extractFSNode, FSNode.fromBytes, hm]
    rw [Node.links] at hl
    simp only [Node.links, hn, not_true_eq_false, if_false, FSNode.blockSizes, hb]
    rw [skipLoop_all (List.length_map _) (fun h => hl (List.length_eq_zero_iff.mp h))]

/-- Situation in the middle of a `Seek` to `t`, just before `down`. -/
structure Seeking (root : Node) (c : Bytes) (t : Nat) (w : WS SS) : Prop where
  mk ::
  rem : ∃ p, p + w.s.left = t ∧ p ≤ c.length ∧ Rem root w.path (c.drop p)
  cur : w.s.cur = none
  root : w.path = [] → SizesTrue root ∧ w.s.left = t
  top : ∀ f up, w.path = f :: up → SizesTrueL f.node.links ∧ (∀ l, f.node.links[f.idx]? = some l → w.s.left < contentLen l.target) ∧
    (f.node.links[f.idx]? = none → c.length + w.s.left ≤ t)

structure Sought (net : Net) (root : Node) (c : Bytes) (t : Nat) (w : WS SS) (r : Option Err) (w' : WS SS) : Prop where
  mk ::
  ok : r = none → ∃ b, Rem root w'.path b ∧ w'.s.cur.getD [] ++ b = c.drop t
  err : ∀ e, r = some e → e = .notFound ∧ (∃ u x, w.tick ≤ u ∧ net u x = false) ∧ w'.s.cur = none ∧
    ∃ p, p ≤ t ∧ p ≤ c.length ∧ Rem root w'.path (c.drop p)
  todo_le : todo root w'.path ≤ todo root w.path
  tick_le : w.tick ≤ w'.tick

theorem walkSeek_spec (net : Net) (root : Node) (c : Bytes) (t : Nat) (hc : c.length < 2 ^ 64) : ∀ (k : Nat) (w : WS SS), Seeking root c t w →
    todo root w.path + 1 ≤ k → ∃ r w', walkSeek net root seekVisitor k w = (r, w') ∧ Sought net root c t w r w' := by
  intro k
  induction k with
  | zero => intro w _ h; omega
  | succ k ih =>
    intro w hw hk
    -- the visit of the next node
    have visit : ∀ (x : Node) (a b : Bytes) (p u : Nat), SizesTrue x → content x = some a → RemUp w.path b → c.drop p = a ++ b →
        p + w.s.left = t → p ≤ c.length → x.count + todoUp w.path = todo root w.path → w.tick ≤ u →
        (w.s.left < a.length ∨ (b = [] ∧ p = 0)) →
        down net root seekVisitor w = visitChild seekVisitor x w.path u w.s →
        ∃ r w', walkSeek net root seekVisitor (k + 1) w = (r, w') ∧ Sought net root c t w r w' := by
      intro x a b p u hsx hx hb hcp hpt hpc hcnt hu hleft hd
      have hcx := count_links x
      rw [walkSeek, hd]
      by_cases hl : x.links = []
      · have hread := content_leaf hl hx
        have hv : seekVisitor x w.s = (.cont, 0, { w.s with cur := some (a.drop w.s.left) }) := by
          simp [seekVisitor, hl, hread]
        simp only [visitChild, hv]
        obtain ⟨k, rfl⟩ : ∃ k', k = k' + 1 := ⟨k - 1, by omega⟩
        have hnc : down net root seekVisitor { path := ⟨x, 0⟩ :: w.path, tick := u, s := { w.s with cur := some (a.drop w.s.left) } } =
            (.noChild, { path := ⟨x, 0⟩ :: w.path, tick := u, s := { w.s with cur := some (a.drop w.s.left) } }) := by
          simp [down, hl]
        rw [walkSeek, hnc]
        refine ⟨_, _, rfl, ?_, by simp, ?_, hu⟩
        · intro _
          refine ⟨b, rem_leaf root hl hb, ?_⟩
          show a.drop w.s.left ++ b = c.drop t
          rw [← hpt, ← List.drop_drop, hcp]
          rcases hleft with h | ⟨h, _⟩
          · rw [List.drop_append_of_le_length (by omega)]
          · simp [h]
        · have := todo_visit root x w.path
          show todo root (⟨x, 0⟩ :: w.path) ≤ _; omega
      · have hxl : contentL x.links = some a := by rw [content_internal hl] at hx; exact hx
        have hal : a.length < 2 ^ 64 := by
          have := congrArg List.length hcp; simp at this; omega
        obtain ⟨j, hj, left', a', h1, h2, h3, h4, h5, h6, h7⟩ := skipChildren_spec x.links a 0 w.s.left hxl hal
        have hv : seekVisitor x w.s = (.cont, j, { w.s with left := left' }) := by
          rw [seekVisitor_internal hsx hl, h1]; simp
        simp only [visitChild, hv]
        have htd : todo root (⟨x, j⟩ :: w.path) + 1 ≤ todo root w.path := by
          have := countL_drop_le x.links j
          show Link.countL (x.links.drop j) + todoUp w.path + 1 ≤ _; omega
        have hlen := congrArg List.length hcp
        simp only [List.length_drop, List.length_append] at hlen
        obtain ⟨r, w', hi, hS⟩ := ih { path := ⟨x, j⟩ :: w.path, tick := u, s := { w.s with left := left' } } ⟨⟨p + (w.s.left - left'), by simp only; omega, by omega, a', b, h3, hb, by
              rw [← List.drop_drop, hcp, List.drop_append_of_le_length (by omega), h4], hj⟩, hw.cur, by simp, by
              intro f up hf
              simp only [List.cons.injEq] at hf
              obtain ⟨rfl, rfl⟩ := hf
              refine ⟨sizesTrue_links hsx, h6, ?_⟩
              intro hnone
              have hje : j = x.links.length := by
                have := List.getElem?_eq_none_iff.mp hnone; simp only at this; omega
              have := h7 hje
              have ha' : a' = [] := by
                rw [hje, List.drop_length] at h3; simpa [contentL] using h3.symm
              rcases hleft with h | ⟨h, h0⟩
              · omega
              · have e1 := congrArg List.length h4
                subst h ha'; simp at hlen e1
                show c.length + left' ≤ t
                omega⟩ (by show todo root (⟨x, j⟩ :: w.path) + 1 ≤ k; omega)
        refine ⟨r, w', hi, hS.ok, ?_, by have := hS.todo_le; simp only at this; omega, by have := hS.tick_le; simp only at this; omega⟩
        intro e he
        obtain ⟨g1, ⟨v, y, g2, g3⟩, g4⟩ := hS.err e he
        exact ⟨g1, ⟨v, y, by simp only at g2; omega, g3⟩, g4⟩
    obtain ⟨p, hpt, hpc, hrem⟩ := hw.rem
    cases hpath : w.path with
    | nil =>
      obtain ⟨hs, hleft⟩ := hw.root hpath
      rw [hpath] at hrem
      have hp0 : p = 0 := by omega
      exact visit root (c.drop p) [] p w.tick hs hrem (by simp [hpath, RemUp]) (by simp) hpt hpc (by simp [hpath, todo, todoUp]) (Nat.le_refl _)
        (.inr ⟨rfl, hp0⟩) (by simp [down, hpath])
    | cons f up =>
      obtain ⟨hs, hin, hout⟩ := hw.top f up hpath
      have hrem' := hrem
      rw [hpath] at hrem
      obtain ⟨a, b, ha, hb, hbs, hi⟩ := hrem
      cases hl : f.node.links[f.idx]? with
      | none =>
        have hd : down net root seekVisitor w = (.noChild, w) := by simp [down, hpath, hl]
        rw [walkSeek, hd]
        refine ⟨_, _, rfl, ?_, by simp, by simp, Nat.le_refl _⟩
        intro _
        have hlen := hout hl
        -- nothing is left under this node, and the target is at or after the end
        refine ⟨c.drop p, hrem', ?_⟩
        rw [hw.cur, List.drop_eq_nil_of_le (by omega : c.length ≤ p), List.drop_eq_nil_of_le (by omega : c.length ≤ t)]; rfl
      | some l =>
        by_cases hnet : net w.tick l.target = true
        · have hdc := drop_eq_cons hl
          rw [hdc] at ha
          obtain ⟨x, y, hx, hy, hxy⟩ := contentL_cons _ _ ha
          have hlt : f.idx < f.node.links.length := (List.getElem?_eq_some_iff.mp hl).1
          have hll := hin l hl
          rw [contentLen_eq hx] at hll
          refine visit l.target x (y ++ b) p (w.tick + 1) (sizesTrueL_mem hs (List.mem_of_getElem? hl)) hx ?_ (by simp [hbs, hxy]) hpt hpc ?_ (by simp) (.inl hll) ?_
          · rw [hpath]; exact ⟨y, b, hy, hb, rfl, hlt⟩
          · rw [hpath]; simp only [todo, todoUp, hdc, countL_cons]; omega
          · simp [down, hpath, hl, hnet]
        · have hd : down net root seekVisitor w = (.err .notFound, { w with tick := w.tick + 1 }) := by simp [down, hpath, hl, hnet]
          rw [walkSeek, hd]
          refine ⟨_, _, rfl, by simp, ?_, by simp, by simp⟩
          intro e he
          simp only [Option.some.injEq] at he
          exact ⟨he.symm, ⟨w.tick, l.target, Nat.le_refl _, by simpa using hnet⟩, hw.cur, p, by omega, hpc, hrem'⟩

end Unixfs.Reader
