import Verif.Reader.Run

/-! # Helper lemmas: reading an arbitrary, possibly malformed, DAG terminates

The definitions in this file belong to proofs; they model no code.
-/

namespace Unixfs.Reader
open Unixfs Unixfs.Spec

theorem needVarint_err {b : Bytes} {e : Err} (h : Pb.needVarint b = .error e) : e ≠ .outOfFuel := by
  unfold Pb.needVarint at h; split at h <;> simp_all; rintro rfl; simp_all

theorem skipField_err {w : Nat} {b : Bytes} {e : Err} (h : Pb.skipField w b = .error e) : e ≠ .outOfFuel := by
  unfold Pb.skipField at h
  rintro rfl
  (repeat' split at h) <;> simp_all

theorem step_err {m : Pb.Data} {x : Nat} {b : Bytes} {e : Err} (h : m.step x b = .error e) : e ≠ .outOfFuel := by
  unfold Pb.Data.step at h
  have nv : ∀ {α : Type} (f : Nat × Bytes → α), (do let p ← Pb.needVarint b; return f p : Except Err α) = .error e → e ≠ .outOfFuel := by
    intro α f hf
    cases hn : Pb.needVarint b with
    | error e' => rw [hn] at hf; cases hf; exact needVarint_err hn
    | ok p => rw [hn] at hf; cases hf
  simp only at h
  split at h
  · cases h; simp
  split at h
  · exact nv (fun p => ({ m with typ := some (UInt32.ofNat p.1) }, p.2)) h
  split at h
  · split at h <;> cases h; simp
  split at h
  · exact nv (fun p => ({ m with filesize := some (UInt64.ofNat p.1) }, p.2)) h
  split at h
  · exact nv (fun p => ({ m with blocksizes := m.blocksizes ++ [UInt64.ofNat p.1] }, p.2)) h
  split at h
  · split at h
    · cases h; simp
    · split at h <;> cases h; simp
  split at h
  · exact nv (fun p => ({ m with hashType := some (UInt64.ofNat p.1) }, p.2)) h
  split at h
  · exact nv (fun p => ({ m with fanout := some (UInt64.ofNat p.1) }, p.2)) h
  · cases hn : Pb.skipField (x % 8) b with
    | error e' => rw [hn] at h; cases h; exact skipField_err hn
    | ok p => rw [hn] at h; cases h

theorem loop_err : ∀ (k : Nat) (m : Pb.Data) (b : Bytes) (e : Err), Pb.Data.loop k m b = .error e → e ≠ .outOfFuel := by
  intro k
  induction k with
  | zero => intro m b e h; cases b <;> simp [Pb.Data.loop] at h; rw [← h]; simp
  | succ k ih =>
    intro m b e h
    cases b with
    | nil => simp [Pb.Data.loop] at h
    | cons x b =>
      simp only [Pb.Data.loop] at h
      split at h
      · cases h; simp
      · split at h
        · rename_i hs; cases h; exact step_err hs
        · exact ih _ _ _ h

theorem unmarshal_err {b : Bytes} {e : Err} (h : Pb.Data.unmarshal b = .error e) : e ≠ .outOfFuel := by
  unfold Pb.Data.unmarshal at h
  split at h
  · rename_i hs; cases h; exact loop_err _ _ _ _ hs
  · split at h <;> cases h; simp

theorem readUnixFSNodeData_err {n : Node} {e : Err} (h : readUnixFSNodeData n = .error e) : e ≠ .outOfFuel := by
  unfold readUnixFSNodeData at h
  rintro rfl
  (repeat' split at h) <;> simp_all

theorem extractFSNode_err {n : Node} {e : Err} (h : extractFSNode n = .error e) : e ≠ .outOfFuel := by
  unfold extractFSNode FSNode.fromBytes at h
  split at h
  · split at h
    · rename_i hs; cases h; exact unmarshal_err hs
    · cases h
  · cases h; simp

/-- Child indices are in range. -/
def UpOK : List Frame → Prop
  | [] => True
  | f :: up => f.idx < f.node.links.length ∧ UpOK up
def PathOK : List Frame → Prop
  | [] => True
  | f :: up => f.idx ≤ f.node.links.length ∧ UpOK up

theorem climb_upOK (root : Node) : ∀ (p : List Frame), UpOK p → p ≠ [] →
    (∃ p', climb p = (true, p') ∧ PathOK p' ∧ todo root p' = todoUp p ∧ ∃ f up, p' = f :: up ∧ f.idx < f.node.links.length) ∨
    (∃ p', climb p = (false, p') ∧ PathOK p' ∧ todo root p' = 0 ∧ p' ≠ []) := by
  intro p
  induction p with
  | nil => intro _ h; exact absurd rfl h
  | cons f rest ih =>
    intro ⟨hi, hup⟩ _
    have hn : nextIdx f = f.idx + 1 := by simp only [nextIdx]; split <;> omega
    by_cases he : f.idx + 1 = f.node.links.length
    · have hd : f.node.links.drop (f.idx + 1) = [] := List.drop_eq_nil_of_le (by omega)
      cases rest with
      | nil =>
        right
        refine ⟨[⟨f.node, f.idx + 1⟩], by simp [climb, hn, he], ⟨by simp [he], trivial⟩, ?_, by simp⟩
        simp [todo, todoUp, hd, Link.countL]
      | cons g up =>
        have hc : climb (f :: g :: up) = climb (g :: up) := by rw [climb]; simp [hn, he]
        rw [hc]
        rcases ih hup (by simp) with ⟨p', h1, h2, h3, h4⟩ | h
        · left
          refine ⟨p', h1, h2, ?_, h4⟩
          rw [h3]; conv_rhs => rw [todoUp]
          simp [hd, Link.countL]
        · right; exact h
    · left
      refine ⟨⟨f.node, f.idx + 1⟩ :: rest, by rw [climb.eq_def]; simp [hn, he], ⟨?_, hup⟩, rfl, ⟨_, _, rfl, ?_⟩⟩
      · show f.idx + 1 ≤ f.node.links.length; omega
      · show f.idx + 1 < f.node.links.length; omega

theorem climb_topOK (root : Node) {f : Frame} {up : List Frame} (h : PathOK (f :: up)) (hn : f.node.links[f.idx]? = none) :
    (∃ p', climb (f :: up) = (true, p') ∧ PathOK p' ∧ todo root p' = todo root (f :: up) ∧
      ∃ f' up', p' = f' :: up' ∧ f'.idx < f'.node.links.length) ∨
    (∃ p', climb (f :: up) = (false, p') ∧ PathOK p' ∧ todo root p' = 0 ∧ p' ≠ []) := by
  obtain ⟨hi, hup⟩ := h
  have hlen : f.node.links.length ≤ f.idx := List.getElem?_eq_none_iff.mp hn
  have hni : nextIdx f = f.node.links.length := by simp only [nextIdx]; split <;> omega
  have hd : f.node.links.drop f.idx = [] := List.drop_eq_nil_of_le hlen
  cases up with
  | nil =>
    right
    refine ⟨[⟨f.node, f.node.links.length⟩], by simp [climb, hni], ⟨Nat.le_refl _, trivial⟩, ?_, by simp⟩
    simp [todo, todoUp, Link.countL]
  | cons g up =>
    have hc : climb (f :: g :: up) = climb (g :: up) := by rw [climb]; simp [hni]
    rw [hc]
    rcases climb_upOK root (g :: up) hup (by simp) with ⟨p', h1, h2, h3, h4⟩ | h
    · left
      refine ⟨p', h1, h2, ?_, h4⟩
      rw [h3]; conv_rhs => rw [todo]
      simp [hd, Link.countL]
    · right; exact h

theorem down_casesOK {σ : Type} (net : Net) (root : Node) (v : Visitor σ) (w : WS σ) (h : PathOK w.path) :
    (∃ f up, w.path = f :: up ∧ f.node.links[f.idx]? = none ∧ down net root v w = (.noChild, w)) ∨
    (down net root v w = (.err .notFound, { w with tick := w.tick + 1 })) ∨
    (∃ x t, UpOK w.path ∧ x.count + todoUp w.path = todo root w.path ∧ down net root v w = visitChild v x w.path t w.s) := by
  obtain ⟨path, tick, s⟩ := w
  cases path with
  | nil =>
    right; right
    exact ⟨root, tick, trivial, by simp [todo, todoUp], rfl⟩
  | cons f up =>
    obtain ⟨hi, hup⟩ := h
    cases hl : f.node.links[f.idx]? with
    | none => left; exact ⟨f, up, rfl, hl, by simp [down, hl]⟩
    | some l =>
      right
      by_cases hnet : net tick l.target = true
      · right
        have hd := drop_eq_cons hl
        have hlt : f.idx < f.node.links.length := (List.getElem?_eq_some_iff.mp hl).1
        refine ⟨l.target, tick + 1, ⟨hlt, hup⟩, ?_, by simp [down, hl, hnet]⟩
        simp only [todo, todoUp, hd, countL_cons]; omega
      · left
        simp [down, hl, hnet]

/-- A visitor that leaves the child index in range and never reports running out of budget. -/
def Polite {σ : Type} (v : Visitor σ) : Prop :=
  ∀ n s, (v n s).2.1 ≤ n.links.length ∧ (v n s).1 ≠ .fail .outOfFuel

theorem iterate_terminates {σ : Type} (net : Net) (root : Node) (v : Visitor σ) (hv : Polite v) : ∀ (k : Nat) (w : WS σ), PathOK w.path →
    2 * todo root w.path + 1 ≤ k →
    (iterate net root v k w).1 ≠ .err .outOfFuel ∧ PathOK (iterate net root v k w).2.path ∧ todo root (iterate net root v k w).2.path ≤ todo root w.path := by
  intro k
  suffices H : ∀ (w : WS σ), PathOK w.path →
      (2 * todo root w.path ≤ k ∧ (∀ f up, w.path = f :: up → f.idx < f.node.links.length) ∨ 2 * todo root w.path + 1 ≤ k) →
      (iterate net root v k w).1 ≠ .err .outOfFuel ∧ PathOK (iterate net root v k w).2.path ∧ todo root (iterate net root v k w).2.path ≤ todo root w.path by
    intro w h1 h2; exact H w h1 (.inr h2)
  induction k with
  | zero =>
    intro w hp hk
    exfalso
    rcases hk with ⟨hk, hf⟩ | hk
    · obtain ⟨path, tick, s⟩ := w
      cases path with
      | nil => simp only [todo] at hk; rw [count_links] at hk; omega
      | cons f up =>
        have := hf f up rfl
        simp only [todo] at hk
        rw [drop_eq_cons (List.getElem?_eq_getElem this), countL_cons, count_links] at hk
        omega
    · omega
  | succ k ih =>
    intro w hp hk
    rw [iterate]
    rcases down_casesOK net root v w hp with ⟨f, up, hpa, hn, hd⟩ | hd | ⟨x, t, hup, hcnt, hd⟩
    · rw [hd]
      have hk' : 2 * todo root w.path ≤ k := by
        rcases hk with ⟨_, hf⟩ | hk
        · have := hf f up hpa
          rw [List.getElem?_eq_none_iff] at hn; omega
        · omega
      rw [hpa] at hp
      rcases climb_topOK root hp hn with ⟨p', h1, h2, h3, h4⟩ | ⟨p', h1, h2, h3, h4⟩
      · simp only [hpa, h1]
        have := ih { w with path := p' } h2 (.inl ⟨by rw [hpa] at hk'; simpa [h3] using hk',
          by obtain ⟨f', up', h4, h4'⟩ := h4; intro g u hg; simp only [h4, List.cons.injEq] at hg; rw [← hg.1]; exact h4'⟩)
        rw [← h3]; exact this
      · simp only [hpa, h1]
        exact ⟨by simp, h2, by simp [h3]⟩
    · rw [hd]
      exact ⟨by simp, hp, Nat.le_refl _⟩
    · rw [hd]
      obtain ⟨hv1, hv2⟩ := hv x w.s
      have hk' : 2 * (x.count + todoUp w.path) ≤ k + 1 := by rw [hcnt]; omega
      have htd : todo root (⟨x, (v x w.s).2.1⟩ :: w.path) + 1 ≤ todo root w.path := by
        have := countL_drop_le x.links (v x w.s).2.1
        have := count_links x
        show Link.countL (x.links.drop (v x w.s).2.1) + todoUp w.path + 1 ≤ _; omega
      generalize hvx : v x w.s = vx at hv1 hv2 htd
      obtain ⟨r, i, s'⟩ := vx
      cases r with
      | cont =>
        simp only [visitChild, hvx]
        have := ih { path := ⟨x, i⟩ :: w.path, tick := t, s := s' } ⟨hv1, hup⟩ (.inr (by show 2 * todo root (⟨x, i⟩ :: w.path) + 1 ≤ k; simp only at htd; omega))
        refine ⟨this.1, this.2.1, Nat.le_trans this.2.2 (by show todo root (⟨x, i⟩ :: w.path) ≤ _; simp only at htd; omega)⟩
      | pause =>
        simp only [visitChild, hvx]
        exact ⟨by simp, ⟨hv1, hup⟩, by simp only at htd; omega⟩
      | fail e =>
        simp only [visitChild, hvx]
        exact ⟨by simpa using hv2, ⟨hv1, hup⟩, by simp only at htd; omega⟩

theorem walkSeek_terminates {σ : Type} (net : Net) (root : Node) (v : Visitor σ) (hv : Polite v) : ∀ (k : Nat) (w : WS σ), PathOK w.path →
    todo root w.path + 1 ≤ k →
    (walkSeek net root v k w).1 ≠ some .outOfFuel ∧ PathOK (walkSeek net root v k w).2.path ∧ todo root (walkSeek net root v k w).2.path ≤ todo root w.path := by
  intro k
  induction k with
  | zero => intro w _ h; omega
  | succ k ih =>
    intro w hp hk
    rw [walkSeek]
    rcases down_casesOK net root v w hp with ⟨f, up, hpa, hn, hd⟩ | hd | ⟨x, t, hup, hcnt, hd⟩
    · rw [hd]; exact ⟨by simp, hp, Nat.le_refl _⟩
    · rw [hd]; exact ⟨by simp, hp, Nat.le_refl _⟩
    · rw [hd]
      obtain ⟨hv1, hv2⟩ := hv x w.s
      have htd : todo root (⟨x, (v x w.s).2.1⟩ :: w.path) + 1 ≤ todo root w.path := by
        have := countL_drop_le x.links (v x w.s).2.1
        have := count_links x
        show Link.countL (x.links.drop (v x w.s).2.1) + todoUp w.path + 1 ≤ _; omega
      generalize hvx : v x w.s = vx at hv1 hv2 htd
      obtain ⟨r, i, s'⟩ := vx
      cases r with
      | cont =>
        simp only [visitChild, hvx]
        have := ih { path := ⟨x, i⟩ :: w.path, tick := t, s := s' } ⟨hv1, hup⟩ (by show todo root (⟨x, i⟩ :: w.path) + 1 ≤ k; simp only at htd; omega)
        refine ⟨this.1, this.2.1, Nat.le_trans this.2.2 (by show todo root (⟨x, i⟩ :: w.path) ≤ _; simp only at htd; omega)⟩
      | pause =>
        simp only [visitChild, hvx]
        exact ⟨by simp, ⟨hv1, hup⟩, by simp only at htd; omega⟩
      | fail e =>
        simp only [visitChild, hvx]
        exact ⟨by simpa using hv2, ⟨hv1, hup⟩, by simp only at htd; omega⟩

theorem polite_read : Polite readVisitor := by
  intro n s
  unfold readVisitor
  by_cases hl : n.links ≠ []
  · simp [hl]
  · simp only [hl, if_false]
    split
    · rename_i e he; exact ⟨by simp, by simpa using readUnixFSNodeData_err he⟩
    · refine ⟨by simp, ?_⟩
      simp only; split <;> simp

theorem polite_write (w : Writer) : Polite (writeVisitor w) := by
  intro n s
  unfold writeVisitor
  by_cases hl : n.links ≠ []
  · simp [hl]
  · simp only [hl, if_false]
    split
    · rename_i e he; exact ⟨by simp, by simpa using readUnixFSNodeData_err he⟩
    · split <;> simp

theorem skipChildren_le : ∀ (ss : List UInt64) (i left : Nat), (skipChildren ss i left).1 ≤ i + ss.length := by
  intro ss
  induction ss with
  | nil => intro i left; simp [skipChildren]
  | cons s ss ih =>
    intro i left
    simp only [skipChildren]
    split
    · simp
    · have := ih (i + 1) (left - s.toNat); simp only [List.length_cons]; omega

theorem polite_seek : Polite seekVisitor := by
  intro n s
  unfold seekVisitor
  by_cases hl : n.links ≠ []
  · rw [if_pos hl]
    split
    · rename_i e he; exact ⟨by simp, by simpa using extractFSNode_err he⟩
    · rename_i fs he
      by_cases hnc : fs.numChildren ≠ n.links.length
      · simp [hnc]
      · simp only [hnc, if_false]
        rw [skipLoop_all (by simpa [FSNode.numChildren, FSNode.blockSizes] using hnc) (fun h => hl (List.length_eq_zero_iff.mp h))]
        have := skipChildren_le fs.blockSizes 0 s.left
        generalize hsk : skipChildren fs.blockSizes 0 s.left = sk at this
        obtain ⟨i, left⟩ := sk
        simp only at this ⊢
        refine ⟨?_, by simp⟩
        have h2 : fs.blockSizes.length = n.links.length := by simpa [FSNode.numChildren, FSNode.blockSizes] using hnc
        omega
  · simp only [hl, if_false]
    split
    · rename_i e he; exact ⟨by simp, by simpa using readUnixFSNodeData_err he⟩
    · simp

/-- Reader states of any DAG. -/
def Sane (dr : DR) : Prop := PathOK dr.path ∧ todo dr.root dr.path ≤ dr.root.count

theorem sane_step (net : Net) {dr : DR} (h : Sane dr) (op : ROp) :
    Sane (dr.step net op).2 ∧ (dr.step net op).1.err ≠ some .outOfFuel := by
  obtain ⟨hp, ht⟩ := h
  have hfuel : 2 * todo dr.root dr.path + 1 ≤ walkFuel dr.root := by simp only [walkFuel]; omega
  cases op with
  | read k =>
    simp only [DR.step, DR.read]
    by_cases hc : dr.cur.isSome = true ∧ (if dr.cur.isSome = true then RS.readBuf { cur := dr.cur, offset := dr.offset, out := [], space := k }
        else { cur := dr.cur, offset := dr.offset, out := [], space := k }).space = 0
    · rw [if_pos hc]; exact ⟨⟨hp, ht⟩, by simp⟩
    · rw [if_neg hc]
      have := iterate_terminates net dr.root readVisitor polite_read (walkFuel dr.root)
        { path := dr.path, tick := dr.tick, s := if dr.cur.isSome then RS.readBuf { cur := dr.cur, offset := dr.offset, out := [], space := k } else { cur := dr.cur, offset := dr.offset, out := [], space := k } } hp hfuel
      generalize hg : iterate net dr.root readVisitor (walkFuel dr.root) _ = rw at this ⊢
      obtain ⟨r, w⟩ := rw
      refine ⟨⟨this.2.1, Nat.le_trans this.2.2 ht⟩, ?_⟩
      cases r with
      | paused => simp
      | endOfDag => simp
      | err e => simpa using this.1
  | writeTo wr =>
    simp only [DR.step, DR.writeTo]
    generalize (if dr.cur.isSome = true then TS.writeBuf wr { cur := dr.cur, offset := dr.offset, out := [], calls := 0 } else
      (true, { cur := dr.cur, offset := dr.offset, out := [], calls := 0 })) = st
    obtain ⟨b, s⟩ := st
    cases b with
    | false => exact ⟨⟨hp, ht⟩, by simp⟩
    | true =>
      simp only
      have := iterate_terminates net dr.root (writeVisitor wr) (polite_write wr) (walkFuel dr.root) { path := dr.path, tick := dr.tick, s := s } hp hfuel
      generalize hg : iterate net dr.root (writeVisitor wr) (walkFuel dr.root) _ = rw at this ⊢
      obtain ⟨r, w⟩ := rw
      refine ⟨⟨this.2.1, Nat.le_trans this.2.2 ht⟩, ?_⟩
      cases r with
      | paused => simp
      | endOfDag => simp
      | err e => simpa using this.1
  | seek off whence =>
    have start : ∀ t : Int, Sane (dr.seekStart net t).2 ∧ (dr.seekStart net t).1.err ≠ some .outOfFuel := by
      intro t
      unfold DR.seekStart
      split
      · exact ⟨⟨hp, ht⟩, by simp⟩
      split
      · exact ⟨⟨hp, ht⟩, by simp⟩
      simp only
      split
      · exact ⟨⟨trivial, by simp [todo]⟩, by simp⟩
      · have := walkSeek_terminates net dr.root seekVisitor polite_seek (walkFuel dr.root)
          { path := [], tick := dr.tick, s := { left := t.toNat, cur := none } } trivial (by simp only [todo, walkFuel]; omega)
        generalize hg : walkSeek net dr.root seekVisitor (walkFuel dr.root) _ = rw at this ⊢
        obtain ⟨r, w⟩ := rw
        have h2 : todo dr.root w.path ≤ dr.root.count := by simpa [todo] using this.2.2
        cases r with
        | none => exact ⟨⟨this.2.1, h2⟩, by simp⟩
        | some e => exact ⟨⟨this.2.1, h2⟩, this.1⟩
    simp only [DR.step, DR.seek]
    split
    · exact start _
    split
    · split
      · exact ⟨⟨hp, ht⟩, by simp⟩
      · exact start _
    split
    · exact start _
    · exact ⟨⟨hp, ht⟩, by simp⟩

theorem sane_run (net : Net) : ∀ (ops : List ROp) {dr : DR}, Sane dr →
    Sane (dr.run net ops).2 ∧ ∀ r ∈ (dr.run net ops).1, r.err ≠ some .outOfFuel := by
  intro ops
  induction ops with
  | nil => intro dr h; exact ⟨h, by simp [run_nil]⟩
  | cons op ops ih =>
    intro dr h
    obtain ⟨h1, h2⟩ := sane_step net h op
    obtain ⟨h3, h4⟩ := ih h1
    rw [run_cons]
    refine ⟨h3, ?_⟩
    intro r hr
    rcases List.mem_cons.mp hr with rfl | hr
    · exact h2
    · exact h4 r hr

end Unixfs.Reader
