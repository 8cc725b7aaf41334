import Verif.Reader.Run
import Verif.Spec.Range

/-! # Helper lemmas: which blocks a reader asks for

The definitions in this file belong to proofs; they model no code.
-/

namespace Unixfs.Reader
open Unixfs Unixfs.Spec

/-! ### Only blocks below the root -/

theorem _root_.Unixfs.Spec.Reach.trans' {a b c : Node} (h : Reach a b) (h' : Reach b c) : Reach a c := by
  induction h with
  | refl => exact h'
  | step hl _ ih => exact .step hl (ih h')

theorem _root_.Unixfs.Spec.Reach.link {a b : Node} {l : Link} (h : Reach a b) (hl : l ∈ b.links) : Reach a l.target := h.trans' (.step hl (.refl _))

/-- The nodes on the path are below the root. -/
def PathIn (root : Node) (p : List Frame) : Prop := ∀ f ∈ p, Reach root f.node

/-- Both networks answer in the same way for blocks below `root`. -/
def Agree (root : Node) (net net' : Net) : Prop := ∀ u x, Reach root x → net u x = net' u x

section
variable {σ : Type} {root : Node} {net net' : Net} {v : Visitor σ}

theorem down_agree (h : Agree root net net') {w : WS σ} (hp : PathIn root w.path) :
    down net root v w = down net' root v w ∧ PathIn root (down net root v w).2.path := by
  rw [down, down]
  split
  · refine ⟨rfl, ?_⟩
    rw [visitChild]
    intro f hf
    simp only [List.mem_singleton] at hf
    subst hf
    exact .refl _
  · rename_i n i up hw
    have hn : Reach root n := hp ⟨n, i⟩ (by rw [hw]; simp)
    split
    · exact ⟨rfl, hp⟩
    · rename_i l hl
      have hr : Reach root l.target := hn.link (List.mem_of_getElem? hl)
      rw [h _ _ hr]
      refine ⟨rfl, ?_⟩
      split
      · rw [visitChild]
        intro f hf
        rcases List.mem_cons.mp hf with rfl | hf
        · exact hr
        · exact hp f hf
      · exact hp

theorem climb_in : ∀ {p : List Frame}, PathIn root p → PathIn root (climb p).2
  | [], h => by rw [climb]; exact h
  | [f], h => by
    rw [climb]
    split
    · intro g hg; simp only [List.mem_singleton] at hg; subst hg; exact h f (by simp)
    · intro g hg; rcases List.mem_cons.mp hg with rfl | hg
      · exact h f (by simp)
      · exact h g (by simp [hg])
  | f :: g :: up, h => by
    rw [climb]
    split
    · exact climb_in (p := g :: up) fun x hx => h x (by simp [hx])
    · intro x hx; rcases List.mem_cons.mp hx with rfl | hx
      · exact h f (by simp)
      · exact h x (by simp only [List.mem_cons]; exact .inr (by simpa using hx))

theorem iterate_agree (h : Agree root net net') : ∀ (k : Nat) {w : WS σ}, PathIn root w.path →
    iterate net root v k w = iterate net' root v k w ∧ PathIn root (iterate net root v k w).2.path := by
  intro k
  induction k with
  | zero => intro w hp; exact ⟨rfl, hp⟩
  | succ k ih =>
    intro w hp
    rw [iterate, iterate]
    obtain ⟨h1, h2⟩ := down_agree (v := v) h hp
    rw [← h1]
    generalize down net root v w = D at h2
    obtain ⟨r, w'⟩ := D
    cases r with
    | ok => exact ih h2
    | paused => exact ⟨rfl, h2⟩
    | err e => exact ⟨rfl, h2⟩
    | noChild =>
      have h3 := climb_in h2
      dsimp only at h3 ⊢
      generalize climb w'.path = C at h3
      obtain ⟨b, p⟩ := C
      cases b with
      | true => exact ih h3
      | false => exact ⟨rfl, h3⟩

theorem walkSeek_agree (h : Agree root net net') : ∀ (k : Nat) {w : WS σ}, PathIn root w.path →
    walkSeek net root v k w = walkSeek net' root v k w ∧ PathIn root (walkSeek net root v k w).2.path := by
  intro k
  induction k with
  | zero => intro w hp; exact ⟨rfl, hp⟩
  | succ k ih =>
    intro w hp
    rw [walkSeek, walkSeek]
    obtain ⟨h1, h2⟩ := down_agree (v := v) h hp
    rw [← h1]
    generalize down net root v w = D at h2
    obtain ⟨r, w'⟩ := D
    cases r with
    | ok => exact ih h2
    | paused => exact ⟨rfl, h2⟩
    | err e => exact ⟨rfl, h2⟩
    | noChild => exact ⟨rfl, h2⟩

end

variable {net net' : Net}

theorem read_agree {dr : DR} (h : Agree dr.root net net') (hp : PathIn dr.root dr.path) (k : Nat) :
    dr.read net k = dr.read net' k ∧ (dr.read net k).2.root = dr.root ∧ PathIn dr.root (dr.read net k).2.path := by
  unfold DR.read
  dsimp only
  generalize (if dr.cur.isSome then _ else _ : RS) = s
  obtain ⟨h1, h2⟩ := iterate_agree (v := readVisitor) h (walkFuel dr.root) (w := { path := dr.path, tick := dr.tick, s := s }) hp
  rw [← h1]
  split
  · exact ⟨rfl, rfl, hp⟩
  · exact ⟨rfl, rfl, h2⟩

theorem writeTo_agree {dr : DR} (h : Agree dr.root net net') (hp : PathIn dr.root dr.path) (wr : Writer) :
    dr.writeTo net wr = dr.writeTo net' wr ∧ (dr.writeTo net wr).2.root = dr.root ∧ PathIn dr.root (dr.writeTo net wr).2.path := by
  unfold DR.writeTo
  dsimp only
  generalize (if dr.cur.isSome then _ else _ : Bool × TS) = S
  obtain ⟨b, s⟩ := S
  cases b with
  | false => exact ⟨rfl, rfl, hp⟩
  | true =>
    obtain ⟨h1, h2⟩ := iterate_agree (v := writeVisitor wr) h (walkFuel dr.root) (w := { path := dr.path, tick := dr.tick, s := s }) hp
    dsimp only
    rw [← h1]
    exact ⟨rfl, rfl, h2⟩

theorem seekStart_agree {dr : DR} (h : Agree dr.root net net') (hp : PathIn dr.root dr.path) (off : Int) :
    dr.seekStart net off = dr.seekStart net' off ∧ (dr.seekStart net off).2.root = dr.root ∧ PathIn dr.root (dr.seekStart net off).2.path := by
  unfold DR.seekStart
  have hn : PathIn dr.root [] := fun f hf => by simp at hf
  split
  · exact ⟨rfl, rfl, hp⟩
  split
  · exact ⟨rfl, rfl, hp⟩
  dsimp only
  split
  · exact ⟨rfl, rfl, hn⟩
  obtain ⟨h1, h2⟩ := walkSeek_agree (v := seekVisitor) h (walkFuel dr.root) (w := { path := [], tick := dr.tick, s := { left := off.toNat, cur := none } }) hn
  rw [← h1]
  generalize walkSeek net dr.root seekVisitor (walkFuel dr.root) _ = R at h2
  obtain ⟨e, w⟩ := R
  cases e with
  | none => exact ⟨rfl, rfl, h2⟩
  | some e => exact ⟨rfl, rfl, h2⟩

theorem step_agree {dr : DR} (h : Agree dr.root net net') (hp : PathIn dr.root dr.path) (op : ROp) :
    dr.step net op = dr.step net' op ∧ (dr.step net op).2.root = dr.root ∧ PathIn dr.root (dr.step net op).2.path := by
  cases op with
  | read k => exact read_agree h hp k
  | writeTo w => exact writeTo_agree h hp w
  | seek off wh =>
    simp only [DR.step]
    unfold DR.seek
    split
    · exact seekStart_agree h hp _
    split
    · split
      · exact ⟨rfl, rfl, hp⟩
      · exact seekStart_agree h hp _
    split
    · exact seekStart_agree h hp _
    · exact ⟨rfl, rfl, hp⟩

theorem run_agree : ∀ (ops : List ROp) {dr : DR}, Agree dr.root net net' → PathIn dr.root dr.path → dr.run net ops = dr.run net' ops := by
  intro ops
  induction ops with
  | nil => intro dr _ _; rfl
  | cons op ops ih =>
    intro dr h hp
    obtain ⟨h1, h2, h3⟩ := step_agree h hp op
    rw [run_cons, run_cons, ← h1, ih (by rw [h2]; exact h) (by rw [h2]; exact h3)]

/-! ### Only blocks of the range -/

theorem contentL_append : ∀ {a b : List Link} {x y : Bytes}, contentL a = some x → contentL b = some y → contentL (a ++ b) = some (x ++ y)
  | [], b, x, y, hx, hy => by simp only [contentL, Option.some.injEq] at hx; subst hx; exact hy
  | l :: a, b, x, y, hx, hy => by
    obtain ⟨u, v, hu, hv, rfl⟩ := contentL_cons l a hx
    obtain ⟨p, q, n⟩ := l
    have := contentL_append hv hy
    simp only [Link.target] at hu
    simp [contentL, hu, this]

theorem contentL_split : ∀ {a b : List Link} {z : Bytes}, contentL (a ++ b) = some z → ∃ x y, contentL a = some x ∧ contentL b = some y ∧ z = x ++ y
  | [], b, z, h => ⟨[], z, rfl, h, rfl⟩
  | l :: a, b, z, h => by
    obtain ⟨u, v, hu, hv, rfl⟩ := contentL_cons l (a ++ b) h
    obtain ⟨x, y, hx, hy, rfl⟩ := contentL_split hv
    refine ⟨u ++ x, y, ?_, hy, by simp⟩
    obtain ⟨p, q, n⟩ := l
    simp only [Link.target] at hu
    simp [contentL, hu, hx]

theorem _root_.Unixfs.Spec.At.snoc {x y : Node} {s : Nat} (h : At x s y) {l : Link} {pre post : List Link} {a : Bytes} (hl : y.links = pre ++ l :: post)
    (ha : contentL pre = some a) : At x (s + a.length) l.target := by
  induction h with
  | here => rw [Nat.zero_add]; have := At.child hl ha (.here l.target); simpa using this
  | child hl' ha' _ ih => rw [Nat.add_assoc]; exact .child hl' ha' (ih hl)

/-- Where the nodes of the path are in the file of `len` bytes. -/
def Loc (root : Node) (len : Nat) : List Frame → Prop
  | [] => True
  | f :: up => (∃ s a b, At root s f.node ∧ content f.node = some a ∧ RemUp up b ∧ s + a.length + b.length = len) ∧ Loc root len up

theorem climb_loc {root : Node} {len : Nat} : ∀ {p : List Frame}, Loc root len p → Loc root len (climb p).2
  | [], h => by rw [climb]; exact h
  | [f], h => by rw [climb]; split <;> exact h
  | f :: g :: up, h => by
    rw [climb]
    split
    · exact climb_loc (p := g :: up) h.2
    · exact h

theorem remUp_inj : ∀ {p : List Frame} {a b : Bytes}, RemUp p a → RemUp p b → a = b
  | [], a, b, h, h' => by rw [h, h']
  | f :: up, a, b, ⟨x, y, h1, h2, h3, _⟩, ⟨x', y', h1', h2', h3', _⟩ => by
    rw [h1] at h1'; cases h1'
    rw [h3, h3', remUp_inj h2 h2']

/-- The next child: where it is, and what comes after it. -/
theorem loc_child {root : Node} {len : Nat} {f : Frame} {up : List Frame} {bs : Bytes} {l : Link} (hloc : Loc root len (f :: up))
    (hr : Rem root (f :: up) bs) (hl : f.node.links[f.idx]? = some l) :
    ∃ s a b, At root s l.target ∧ s + bs.length = len ∧ content l.target = some a ∧ RemUp (f :: up) b ∧ bs = a ++ b ∧ s + a.length + b.length = len := by
  obtain ⟨⟨s, A, B, h1, h2, h3, h4⟩, _⟩ := hloc
  obtain ⟨a, b, h5, h6, h7, h8⟩ := hr
  have hb := remUp_inj h3 h6
  subst hb
  have hd := drop_eq_cons hl
  have hlt : f.idx < f.node.links.length := (List.getElem?_eq_some_iff.mp hl).1
  have hne : f.node.links ≠ [] := by intro h; rw [h] at hlt; simp at hlt
  rw [content_internal hne, ← List.take_append_drop f.idx f.node.links] at h2
  obtain ⟨x, y, hx, hy, hxy⟩ := contentL_split h2
  rw [h5] at hy; cases hy
  rw [hd] at h5
  obtain ⟨u, v, hu, hv, huv⟩ := contentL_cons _ _ h5
  have hat := h1.snoc (l := l) (pre := f.node.links.take f.idx) (post := f.node.links.drop (f.idx + 1)) (by rw [← hd, List.take_append_drop]) hx
  have hlen := congrArg List.length hxy
  have hlen2 := congrArg List.length huv
  rw [List.length_append] at hlen hlen2
  refine ⟨_, u, v ++ B, hat, ?_, hu, ⟨v, B, hv, h3, rfl, hlt⟩, by rw [h7, huv, List.append_assoc], ?_⟩
  · rw [h7, List.length_append]; omega
  · rw [List.length_append]; omega

/-- The network that delivers everything. -/
def allNet : Net := fun _ _ => true

theorem rem_len {root : Node} {c bs : Bytes} {p : List Frame} (hc : content root = some c) (hloc : Loc root c.length p) (hr : Rem root p bs) : bs.length ≤ c.length := by
  cases p with
  | nil => rw [Rem, hc] at hr; cases hr; exact Nat.le_refl _
  | cons f up =>
    obtain ⟨⟨s, A, B, h1, h2, h3, h4⟩, _⟩ := hloc
    obtain ⟨a, b, h5, h6, h7, h8⟩ := hr
    have hb := remUp_inj h3 h6
    subst hb
    rw [h7, List.length_append]
    by_cases hne : f.node.links = []
    · rw [hne] at h5; simp [contentL] at h5; subst h5; simp; omega
    · rw [content_internal hne, ← List.take_append_drop f.idx f.node.links] at h2
      obtain ⟨x, y, hx, hy, hxy⟩ := contentL_split h2
      rw [h5] at hy; cases hy
      have := congrArg List.length hxy
      rw [List.length_append] at this
      omega

/-- A reading walk that is not yet done: the next byte is at `B - space`. -/
theorem iterate_read_local {root : Node} {c : Bytes} (hc : content root = some c) {net : Net} {A B : Nat} :
    ∀ (k : Nat) (w : WS RS) (bs : Bytes), Serves net w.tick (Needed root A B) → Rem root w.path bs → Loc root c.length w.path → w.s.cur = none → 0 < w.s.space →
      c.length + w.s.space = bs.length + B → A + w.s.space ≤ B →
      iterate net root readVisitor k w = iterate allNet root readVisitor k w ∧ Loc root c.length (iterate net root readVisitor k w).2.path := by
  intro k
  induction k with
  | zero => intro w bs _ _ hl _ _ _ _; exact ⟨rfl, hl⟩
  | succ k ih =>
    intro w bs hn hr hl hcur hsp hpos hA
    -- a visit of the node `x`
    have visit : ∀ (x : Node) (s : Nat) (a b : Bytes) (u : Nat), At root s x → content x = some a → RemUp w.path b → bs = a ++ b → s + a.length + b.length = c.length → w.tick ≤ u →
        down net root readVisitor w = visitChild readVisitor x w.path u w.s → down allNet root readVisitor w = visitChild readVisitor x w.path u w.s →
        iterate net root readVisitor (k + 1) w = iterate allNet root readVisitor (k + 1) w ∧ Loc root c.length (iterate net root readVisitor (k + 1) w).2.path := by
      intro x s a b u hat hx hb hbs hlen hu hd1 hd2
      rw [iterate, iterate, hd1, hd2]
      have hloc : ∀ i, Loc root c.length (⟨x, i⟩ :: w.path) := fun i => ⟨⟨s, a, b, hat, hx, hb, hlen⟩, hl⟩
      have hn' : Serves net u (Needed root A B) := fun v hv => hn v (by omega)
      by_cases hlk : x.links = []
      · have hread := content_leaf hlk hx
        have hv : readVisitor x w.s = (if (RS.readBuf { w.s with cur := some a }).space = 0 then .pause else .cont, 0, RS.readBuf { w.s with cur := some a }) := by
          simp only [readVisitor, hlk, ne_eq, not_true_eq_false, if_false, hread]
        have hspace : (RS.readBuf { w.s with cur := some a }).space = w.s.space - min w.s.space a.length := by simp [RS.readBuf]
        have hcur' : a.length < w.s.space → (RS.readBuf { w.s with cur := some a }).cur = none := by
          intro h
          simp only [RS.readBuf, Option.getD_some]
          rw [List.drop_eq_nil_of_le (by omega), if_pos rfl]
        generalize RS.readBuf { w.s with cur := some a } = R at hv hspace hcur'
        simp only [visitChild, hv]
        by_cases hz : R.space = 0
        · rw [if_pos hz]; exact ⟨rfl, hloc 0⟩
        · rw [if_neg hz]
          have hle : a.length < w.s.space := by omega
          have hR : R.space + a.length = w.s.space := by omega
          rw [hbs, List.length_append] at hpos
          exact ih ⟨⟨x, 0⟩ :: w.path, u, R⟩ b hn' (rem_leaf root hlk hb) (hloc 0) (hcur' hle) (by show 0 < R.space; omega) (by show c.length + R.space = _; omega)
            (by show A + R.space ≤ B; omega)
      · have hv : readVisitor x w.s = (.cont, 0, w.s) := by simp [readVisitor, hlk]
        simp only [visitChild, hv]
        exact ih _ bs hn' (by rw [hbs]; exact rem_internal root hlk hx hb) (hloc 0) hcur hsp hpos hA
    have hle := rem_len hc hl hr
    obtain ⟨path, tick, s⟩ := w
    cases path with
    | nil =>
      refine visit root 0 c [] tick (.here _) hc rfl ?_ (by simp) (Nat.le_refl _) rfl rfl
      rw [Rem, hc] at hr; cases hr; simp
    | cons f up =>
      cases hlk : f.node.links[f.idx]? with
      | none =>
        have hd1 : ∀ net, down net root readVisitor ⟨f :: up, tick, s⟩ = (.noChild, ⟨f :: up, tick, s⟩) := fun net => by simp [down, hlk]
        rw [iterate, iterate, hd1, hd1]
        have h3 := climb_loc hl
        rcases climb_top root hr hlk with ⟨p', h1, h2, _⟩ | ⟨p', h1, _⟩
        · dsimp only at h3 ⊢
          rw [h1] at h3 ⊢
          exact ih _ bs hn h2 h3 hcur hsp hpos hA
        · dsimp only at h3 ⊢
          rw [h1] at h3 ⊢
          exact ⟨rfl, h3⟩
      | some l =>
        obtain ⟨s', a, b, h1, h2, h3, h4, h5, h6⟩ := loc_child hl hr hlk
        have hok : net tick l.target = true := hn tick (Nat.le_refl _) _ ⟨s', h1, by dsimp only at hsp hpos; omega, .inl (by dsimp only at hpos hA; omega)⟩
        exact visit l.target s' a b (tick + 1) h1 h3 h4 h5 h6 (by simp) (by simp [down, hlk, hok]) (by simp [down, hlk, allNet])

/-- `Seek` to `t`. -/
theorem walkSeek_local {root : Node} {c : Bytes} (hc : content root = some c) (hlim : c.length < 2 ^ 64) {net : Net} {t B : Nat} (hB : t < B) :
    ∀ (k : Nat) (w : WS SS), Serves net w.tick (Needed root t B) → Seeking root c t w → Loc root c.length w.path →
      walkSeek net root seekVisitor k w = walkSeek allNet root seekVisitor k w ∧ Loc root c.length (walkSeek net root seekVisitor k w).2.path := by
  intro k
  induction k with
  | zero => intro w _ _ hl; exact ⟨rfl, hl⟩
  | succ k ih =>
    intro w hn hw hl
    obtain ⟨p, hpt, hpc, hrem⟩ := hw.rem
    have visit : ∀ (x : Node) (s : Nat) (a b : Bytes) (u : Nat), At root s x → SizesTrue x → content x = some a → RemUp w.path b → c.drop p = a ++ b → s + a.length + b.length = c.length →
        w.tick ≤ u → (w.s.left < a.length ∨ (b = [] ∧ p = 0)) →
        down net root seekVisitor w = visitChild seekVisitor x w.path u w.s → down allNet root seekVisitor w = visitChild seekVisitor x w.path u w.s →
        walkSeek net root seekVisitor (k + 1) w = walkSeek allNet root seekVisitor (k + 1) w ∧ Loc root c.length (walkSeek net root seekVisitor (k + 1) w).2.path := by
      intro x s a b u hat hsx hx hb hcp hlen hu hleft hd1 hd2
      rw [walkSeek, walkSeek, hd1, hd2]
      have hloc : ∀ i, Loc root c.length (⟨x, i⟩ :: w.path) := fun i => ⟨⟨s, a, b, hat, hx, hb, hlen⟩, hl⟩
      by_cases hlk : x.links = []
      · have hread := content_leaf hlk hx
        have hv : seekVisitor x w.s = (.cont, 0, { w.s with cur := some (a.drop w.s.left) }) := by simp [seekVisitor, hlk, hread]
        simp only [visitChild, hv]
        have hd : ∀ net, down net root seekVisitor { path := ⟨x, 0⟩ :: w.path, tick := u, s := { w.s with cur := some (a.drop w.s.left) } } =
            (.noChild, { path := ⟨x, 0⟩ :: w.path, tick := u, s := { w.s with cur := some (a.drop w.s.left) } }) := fun net => by simp [down, hlk]
        cases k with
        | zero => exact ⟨rfl, hloc 0⟩
        | succ k => rw [walkSeek, walkSeek, hd, hd]; exact ⟨rfl, hloc 0⟩
      · have hxl : contentL x.links = some a := by rw [content_internal hlk] at hx; exact hx
        have hlen' := congrArg List.length hcp
        simp only [List.length_drop, List.length_append] at hlen'
        obtain ⟨j, hj, left', a', h1, h2, h3, h4, h5, h6, h7⟩ := skipChildren_spec x.links a 0 w.s.left hxl (by omega)
        have hv : seekVisitor x w.s = (.cont, j, { w.s with left := left' }) := by rw [seekVisitor_internal hsx hlk, h1]; simp
        simp only [visitChild, hv]
        refine ih _ (fun v hv => hn v (by dsimp only at hv; omega)) ⟨⟨p + (w.s.left - left'), by simp only; omega, by omega, a', b, h3, hb, by
              rw [← List.drop_drop, hcp, List.drop_append_of_le_length (by omega), h4], hj⟩, hw.cur, by simp, ?_⟩ (hloc j)
        intro f up hf
        simp only [List.cons.injEq] at hf
        obtain ⟨rfl, rfl⟩ := hf
        refine ⟨sizesTrue_links hsx, h6, ?_⟩
        intro hnone
        have hje : j = x.links.length := by
          have := List.getElem?_eq_none_iff.mp hnone; simp only at this; omega
        have := h7 hje
        have ha' : a' = [] := by
          rw [hje, List.drop_length] at h3; simpa [contentL] using h3.symm
        rcases hleft with h | ⟨h, h0⟩
        · omega
        · have e1 := congrArg List.length h4
          subst h ha'; simp at hlen' e1
          show c.length + left' ≤ t
          omega
    cases hpath : w.path with
    | nil =>
      obtain ⟨hs, hleft⟩ := hw.root hpath
      rw [hpath, Rem, hc, Option.some.injEq] at hrem
      refine visit root 0 c [] w.tick (.here _) hs hc (by simp [hpath, RemUp]) (by simpa using hrem.symm) (by simp) (Nat.le_refl _) (.inr ⟨rfl, by omega⟩)
        (by simp [down, hpath]) (by simp [down, hpath])
    | cons f up =>
      obtain ⟨hs, hin, hout⟩ := hw.top f up hpath
      cases hlk : f.node.links[f.idx]? with
      | none =>
        have hd : ∀ net, down net root seekVisitor w = (.noChild, w) := fun net => by simp [down, hpath, hlk]
        rw [walkSeek, walkSeek, hd, hd]
        exact ⟨rfl, hl⟩
      | some l =>
        rw [hpath] at hl hrem
        obtain ⟨s', a, b, h1, h2, h3, h4, h5, h6⟩ := loc_child hl hrem hlk
        rw [List.length_drop] at h2
        have hll := hin l hlk
        have hcl := contentLen_eq h3
        have hok : net w.tick l.target = true := hn w.tick (Nat.le_refl _) _ ⟨s', h1, by omega, .inr (by omega)⟩
        refine visit l.target s' a b (w.tick + 1) h1 (sizesTrueL_mem hs (List.mem_of_getElem? hlk)) h3 (by rw [hpath]; exact h4) h5 h6 (by simp) (.inl (by omega))
          (by simp [down, hpath, hlk, hok]) (by simp [down, hpath, hlk, allNet])

theorem serves_mono {net : Net} {t t' : Nat} {S S' : Node → Prop} (h : Serves net t S) (ht : t ≤ t') (hS : ∀ y, S' y → S y) : Serves net t' S' :=
  fun u hu y hy => h u (Nat.le_trans ht hu) y (hS y hy)

theorem needed_mono {x : Node} {a b a' b' : Nat} (ha : a ≤ a') (hb : b' ≤ b) (y : Node) (h : Needed x a' b' y) : Needed x a b y := by
  obtain ⟨s, h1, h2, h3⟩ := h
  exact ⟨s, h1, by omega, by omega⟩

theorem read_local {net : Net} {dr : DR} {c : Bytes} {p q k A B : Nat} (hI : Inv dr c p q) (hloc : Loc dr.root c.length dr.path) (hk : 0 < k)
    (hn : Serves net dr.tick (Needed dr.root A B)) (hA : A ≤ p) (hp : p ≤ c.length) (hB : p + k ≤ B) :
    dr.read net k = dr.read allNet k ∧ Loc dr.root c.length (dr.read net k).2.path := by
  obtain ⟨b, hb, hcb⟩ := hI.stream
  have hl := congrArg List.length hcb
  rw [List.length_append, List.length_drop] at hl
  have hn' : Serves net dr.tick (Needed dr.root A (p + k)) := serves_mono hn (Nat.le_refl _) (needed_mono (Nat.le_refl _) hB)
  unfold DR.read
  cases hcur : dr.cur with
  | none =>
    rw [hcur] at hl
    simp only [Option.getD_none, List.length_nil, Nat.zero_add] at hl
    simp only [Option.isSome_none, Bool.false_eq_true, if_false, false_and]
    obtain ⟨h1, h2⟩ := iterate_read_local hI.content (walkFuel dr.root) { path := dr.path, tick := dr.tick, s := { cur := none, offset := dr.offset, out := [], space := k } } b
      hn' hb hloc rfl hk (by show _ + k = _; omega) (by show A + k ≤ _; omega)
    rw [← h1]
    exact ⟨rfl, h2⟩
  | some d =>
    rw [hcur] at hl
    simp only [Option.getD_some] at hl
    simp only [Option.isSome_some, if_true, true_and]
    have hspace : (RS.readBuf { cur := some d, offset := dr.offset, out := [], space := k }).space = k - min k d.length := by simp [RS.readBuf]
    have hcur' : d.length < k → (RS.readBuf { cur := some d, offset := dr.offset, out := [], space := k }).cur = none := by
      intro h
      simp only [RS.readBuf, Option.getD_some]
      rw [List.drop_eq_nil_of_le (by omega), if_pos rfl]
    generalize RS.readBuf { cur := some d, offset := dr.offset, out := [], space := k } = R at hspace hcur'
    split
    · exact ⟨rfl, hloc⟩
    · rename_i hz
      obtain ⟨h1, h2⟩ := iterate_read_local hI.content (walkFuel dr.root) { path := dr.path, tick := dr.tick, s := R } b
        hn' hb hloc (hcur' (by omega)) (by show 0 < R.space; omega) (by show _ + R.space = _; omega) (by show A + R.space ≤ _; omega)
      rw [← h1]
      exact ⟨rfl, h2⟩

theorem seekStart_local {net : Net} {dr : DR} {c : Bytes} {p q a B : Nat} (hI : Inv dr c p q) (hs : SizesTrue dr.root) (hloc : Loc dr.root c.length dr.path)
    (hn : Serves net dr.tick (Needed dr.root a B)) (hB : a < B) :
    dr.seekStart net a = dr.seekStart allNet a ∧ Loc dr.root c.length (dr.seekStart net a).2.path := by
  unfold DR.seekStart
  have h1 := hI.len
  split
  · exact ⟨rfl, hloc⟩
  split
  · exact ⟨rfl, hloc⟩
  dsimp only
  split
  · exact ⟨rfl, trivial⟩
  obtain ⟨h1, h2⟩ := walkSeek_local hI.content (by omega) hB (walkFuel dr.root) { path := [], tick := dr.tick, s := { left := ((a : Nat) : Int).toNat, cur := none } }
    hn ⟨⟨0, by simp, Nat.zero_le _, by simpa [Rem] using hI.content⟩, rfl, fun _ => ⟨hs, by simp⟩, by simp⟩ trivial
  rw [← h1]
  generalize walkSeek net dr.root seekVisitor (walkFuel dr.root) _ = R at h2
  obtain ⟨e, w⟩ := R
  cases e with
  | none => exact ⟨rfl, h2⟩
  | some e => exact ⟨rfl, h2⟩

theorem allNet_works (t : Nat) : WorksFrom allNet t := fun _ _ _ => rfl

/-- Reads within the range. -/
theorem reads_local {net : Net} {c : Bytes} {A B : Nat} : ∀ (ks : List Nat) {dr : DR} {p q : Nat}, Inv dr c p q → Loc dr.root c.length dr.path → (∀ k ∈ ks, 0 < k) →
    Serves net dr.tick (Needed dr.root A B) → A ≤ p → p ≤ c.length → p + ks.sum ≤ B → dr.run net (ks.map .read) = dr.run allNet (ks.map .read) := by
  intro ks
  induction ks with
  | nil => intros; rfl
  | cons k ks ih =>
    intro dr p q hI hloc hk hn hA hp hB
    rw [List.sum_cons] at hB
    obtain ⟨h1, h2⟩ := read_local hI hloc (hk k (by simp)) hn hA hp (by omega)
    have hsp := read_spec net hI k
    obtain ⟨m, hm, _, hm2, _, hI', _⟩ := hsp.ex
    have hml : p + m ≤ c.length := by
      rw [List.length_take, List.length_drop] at hm2; omega
    rw [List.map_cons, run_cons, run_cons]
    simp only [DR.step]
    rw [← h1]
    have := ih (dr := (dr.read net k).2) (p := p + m) (q := q + m) hI' (by rw [hsp.root]; exact h2) (fun k hk' => hk k (by simp [hk']))
      (by rw [hsp.root]; exact serves_mono hn hsp.tick_le (fun _ h => h)) (by omega) hml (by omega)
    rw [this]

end Unixfs.Reader
