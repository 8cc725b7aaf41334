import Verif.Reader.DagReader
import Verif.Import.AppendLemmas

/-! # Helper lemmas about the walker and the reader

The definitions in this file belong to proofs; they model no code.
-/

namespace Unixfs.Reader
open Unixfs Unixfs.Spec

/-- Bytes still under the levels above the active node. -/
def RemUp : List Frame → Bytes → Prop
  | [], bs => bs = []
  | f :: up, bs => ∃ a b, contentL (f.node.links.drop (f.idx + 1)) = some a ∧ RemUp up b ∧ bs = a ++ b ∧ f.idx < f.node.links.length

/-- Bytes the walker has still to visit. -/
def Rem (root : Node) : List Frame → Bytes → Prop
  | [], bs => content root = some bs
  | f :: up, bs => ∃ a b, contentL (f.node.links.drop f.idx) = some a ∧ RemUp up b ∧ bs = a ++ b ∧ f.idx ≤ f.node.links.length

/-- Nodes still to visit. -/
def todoUp : List Frame → Nat
  | [] => 0
  | f :: up => Link.countL (f.node.links.drop (f.idx + 1)) + todoUp up
def todo (root : Node) : List Frame → Nat
  | [] => root.count
  | f :: up => Link.countL (f.node.links.drop f.idx) + todoUp up

theorem contentL_cons (l : Link) (ls : List Link) {a : Bytes} (h : contentL (l :: ls) = some a) :
    ∃ x y, content l.target = some x ∧ contentL ls = some y ∧ a = x ++ y := by
  obtain ⟨p, q, n⟩ := l
  simp only [contentL, Link.target] at h ⊢
  cases hx : content n <;> cases hy : contentL ls <;> simp_all

theorem countL_cons (l : Link) (ls : List Link) : Link.countL (l :: ls) = l.target.count + Link.countL ls := by
  obtain ⟨p, q, n⟩ := l; rfl

theorem count_links (n : Node) : n.count = 1 + Link.countL n.links := by
  cases n <;> simp [Node.count, Node.links, Link.countL]

theorem content_internal {n : Node} (h : n.links ≠ []) : content n = contentL n.links := by
  match n with
  | .raw .. => simp [Node.links] at h
  | .other _ => simp [Node.links] at h
  | .proto _ [] _ => simp [Node.links] at h
  | .proto _ (l :: ls) _ => simp [Node.links, content]

theorem content_leaf {n : Node} {a : Bytes} (h : n.links = []) (hc : content n = some a) :
    readUnixFSNodeData n = .ok a := by
  match n with
  | .raw .. => simpa [content, readUnixFSNodeData] using hc
  | .other _ => simp [content] at hc
  | .proto d [] _ =>
    simp only [content] at hc
    simp only [readUnixFSNodeData, FSNode.fromBytes]
    cases hu : Pb.Data.unmarshal d with
    | error e => simp [hu] at hc
    | ok m =>
      simp only [hu] at hc ⊢
      by_cases hm : IsFileMsg m
      · simp only [hm, if_true, Option.some.injEq] at hc
        have : (FSNode.mk m).type = TFile ∨ (FSNode.mk m).type = TRaw := by
          rcases hm with hm | hm <;> simp [FSNode.type, Pb.Data.getType, hm]
        simp only [this, if_true, FSNode.data, Pb.Data.getData, hc]
      · simp [hm] at hc
  | .proto _ (l :: ls) _ => simp [Node.links] at h

theorem drop_eq_cons {α : Type} {ls : List α} {i : Nat} {l : α} (h : ls[i]? = some l) : ls.drop i = l :: ls.drop (i + 1) := by
  obtain ⟨hi, rfl⟩ := List.getElem?_eq_some_iff.mp h
  exact List.drop_eq_getElem_cons hi

theorem climb_up (root : Node) : ∀ (p : List Frame) (bs : Bytes), RemUp p bs → p ≠ [] →
    (∃ p', climb p = (true, p') ∧ Rem root p' bs ∧ todo root p' = todoUp p ∧ ∃ f up, p' = f :: up ∧ f.idx < f.node.links.length) ∨
    (∃ p', climb p = (false, p') ∧ bs = [] ∧ Rem root p' [] ∧ todo root p' = 0 ∧ p' ≠ []) := by
  intro p
  induction p with
  | nil => intro bs _ h; exact absurd rfl h
  | cons f rest ih =>
    intro bs ⟨a, b, ha, hb, hbs, hi⟩ _
    have hn : nextIdx f = f.idx + 1 := by simp only [nextIdx]; split <;> omega
    by_cases he : f.idx + 1 = f.node.links.length
    · have hd : f.node.links.drop (f.idx + 1) = [] := List.drop_eq_nil_of_le (by omega)
      have ha' : a = [] := by rw [hd] at ha; simpa [contentL] using ha.symm
      cases rest with
      | nil =>
        right
        refine ⟨[⟨f.node, f.idx + 1⟩], by simp [climb, hn, he], ?_, ?_, ?_, by simp⟩
        · simp only [RemUp] at hb; simp [hbs, ha', hb]
        · refine ⟨[], [], by simp [hd, contentL], rfl, rfl, by simp [he]⟩
        · simp [todo, todoUp, hd, Link.countL]
      | cons g up =>
        have hc : climb (f :: g :: up) = climb (g :: up) := by rw [climb]; simp [hn, he]
        rw [hc]
        have hbs' : bs = b := by simp [hbs, ha']
        subst hbs'
        rcases ih bs hb (by simp) with ⟨p', h1, h2, h3, h4⟩ | h
        · left
          refine ⟨p', h1, h2, ?_, h4⟩
          rw [h3]; conv_rhs => rw [todoUp]
          simp [hd, Link.countL]
        · right; exact h
    · left
      refine ⟨⟨f.node, f.idx + 1⟩ :: rest, by rw [climb.eq_def]; simp [hn, he], ⟨a, b, ha, hb, hbs, ?_⟩, rfl, ⟨_, _, rfl, ?_⟩⟩
      · show f.idx + 1 ≤ f.node.links.length; omega
      · show f.idx + 1 < f.node.links.length; omega

/-- The walk ends, or moves to a node that has a next child, without skipping anything. -/
theorem climb_top (root : Node) {f : Frame} {up : List Frame} {bs : Bytes} (h : Rem root (f :: up) bs)
    (hn : f.node.links[f.idx]? = none) :
    (∃ p', climb (f :: up) = (true, p') ∧ Rem root p' bs ∧ todo root p' = todo root (f :: up) ∧
      ∃ f' up', p' = f' :: up' ∧ f'.idx < f'.node.links.length) ∨
    (∃ p', climb (f :: up) = (false, p') ∧ bs = [] ∧ Rem root p' [] ∧ todo root p' = 0 ∧ p' ≠ []) := by
  obtain ⟨a, b, ha, hb, hbs, hi⟩ := h
  have hlen : f.node.links.length ≤ f.idx := List.getElem?_eq_none_iff.mp hn
  have hni : nextIdx f = f.node.links.length := by simp only [nextIdx]; split <;> omega
  have hd : f.node.links.drop f.idx = [] := List.drop_eq_nil_of_le hlen
  have ha' : a = [] := by rw [hd] at ha; simpa [contentL] using ha.symm
  have hbs' : bs = b := by simp [hbs, ha']
  subst hbs'
  cases up with
  | nil =>
    right
    refine ⟨[⟨f.node, f.node.links.length⟩], by simp [climb, hni], hb, ⟨[], [], by simp [contentL], rfl, rfl, Nat.le_refl _⟩, ?_, by simp⟩
    simp [todo, todoUp, Link.countL]
  | cons g up =>
    have hc : climb (f :: g :: up) = climb (g :: up) := by rw [climb]; simp [hni]
    rw [hc]
    rcases climb_up root (g :: up) bs hb (by simp) with ⟨p', h1, h2, h3, h4⟩ | h
    · left
      refine ⟨p', h1, h2, ?_, h4⟩
      rw [h3]; conv_rhs => rw [todo]
      simp [hd, Link.countL]
    · right; exact h

/-- What `down` does: nothing to go down to; a failed fetch; or a visit of the next node `x`. -/
theorem down_cases {σ : Type} (net : Net) (root : Node) (v : Visitor σ) (w : WS σ) {bs : Bytes} (h : Rem root w.path bs) :
    (∃ f up, w.path = f :: up ∧ f.node.links[f.idx]? = none ∧ down net root v w = (.noChild, w)) ∨
    ((∃ x, net w.tick x = false) ∧ down net root v w = (.err .notFound, { w with tick := w.tick + 1 })) ∨
    (∃ x a b t, content x = some a ∧ RemUp w.path b ∧ bs = a ++ b ∧ x.count + todoUp w.path = todo root w.path ∧ w.tick ≤ t ∧
      down net root v w = visitChild v x w.path t w.s) := by
  obtain ⟨path, tick, s⟩ := w
  cases path with
  | nil =>
    right; right
    exact ⟨root, bs, [], tick, h, rfl, by simp, by simp [todo, todoUp], Nat.le_refl _, rfl⟩
  | cons f up =>
    obtain ⟨a, b, ha, hb, hbs, hi⟩ := h
    cases hl : f.node.links[f.idx]? with
    | none => left; exact ⟨f, up, rfl, hl, by simp [down, hl]⟩
    | some l =>
      right
      by_cases hnet : net tick l.target = true
      · right
        have hd := drop_eq_cons hl
        rw [hd] at ha
        obtain ⟨x, y, hx, hy, hxy⟩ := contentL_cons _ _ ha
        have hlt : f.idx < f.node.links.length := (List.getElem?_eq_some_iff.mp hl).1
        refine ⟨l.target, x, y ++ b, tick + 1, hx, ⟨y, b, hy, hb, rfl, hlt⟩, by simp [hbs, hxy], ?_, by simp, by simp [down, hl, hnet]⟩
        simp only [todo, todoUp, hd, countL_cons]; omega
      · left
        exact ⟨⟨l.target, by simpa using hnet⟩, by simp [down, hl, hnet]⟩

/-- After visiting a node with links, the bytes still to visit are unchanged. -/
theorem rem_internal (root : Node) {x : Node} {path : List Frame} {a b : Bytes} (hl : x.links ≠ []) (hx : content x = some a)
    (hb : RemUp path b) : Rem root (⟨x, 0⟩ :: path) (a ++ b) := by
  refine ⟨a, b, ?_, hb, rfl, Nat.zero_le _⟩
  rw [content_internal hl] at hx; simpa using hx

/-- After visiting a leaf, what remains is what comes after it. -/
theorem rem_leaf (root : Node) {x : Node} {path : List Frame} {b : Bytes} (hl : x.links = []) (hb : RemUp path b) :
    Rem root (⟨x, 0⟩ :: path) b := ⟨[], b, by simp [hl, contentL], hb, rfl, Nat.zero_le _⟩

theorem todo_visit (root x : Node) (path : List Frame) : todo root (⟨x, 0⟩ :: path) + 1 = x.count + todoUp path := by
  simp only [todo, List.drop_zero, count_links x]; omega

theorem i64_id {x : Int} (h0 : 0 ≤ x) (h1 : x < 2 ^ 63) : i64 x = x := by
  unfold i64; rw [Int.bmod_def]; omega

/-- Generic account of a read-like iteration. -/
structure IterRead (net : Net) (root : Node) (w : WS RS) (bs : Bytes) (r : WalkEnd) (w' : WS RS) : Prop where
  mk ::
  ex : ∃ got b, bs = got ++ (w'.s.cur.getD [] ++ b) ∧ Rem root w'.path b ∧ w'.s.out = w.s.out ++ got ∧
    w'.s.space + got.length = w.s.space ∧ w'.s.offset = w.s.offset + got.length ∧
    (r = .endOfDag → b = [] ∧ w'.s.cur = none)
  todo_le : todo root w'.path ≤ todo root w.path
  tick_le : w.tick ≤ w'.tick
  paused : r = .paused → w'.s.space = 0
  short : r ≠ .paused → w'.s.space ≠ 0 ∨ w.s.space = 0
  err : ∀ e, r = .err e → e = .notFound ∧ ∃ t x, w.tick ≤ t ∧ net t x = false

theorem readBuf_some (s : RS) (d : Bytes) (q : Nat) (hq : s.offset = q) (hlt : q + d.length < 2 ^ 63) :
    RS.readBuf { s with cur := some d } =
      { cur := if d.drop s.space = [] then none else some (d.drop s.space), offset := s.offset + (d.take s.space).length,
        out := s.out ++ d.take s.space, space := s.space - (d.take s.space).length } := by
  have hle : (d.take s.space).length ≤ d.length := by simp
  simp only [RS.readBuf, Option.getD_some]
  rw [i64_id (by omega) (by omega)]

theorem iterate_read (net : Net) (root : Node) : ∀ (k : Nat) (w : WS RS) (bs : Bytes) (q : Nat), Rem root w.path bs → w.s.cur = none →
    2 * todo root w.path + 1 ≤ k → w.s.offset = q → q + bs.length < 2 ^ 63 →
    ∃ r w', iterate net root readVisitor k w = (r, w') ∧ IterRead net root w bs r w' := by
  intro k
  -- a state whose top frame has no child needs one step more than one that has
  suffices H : ∀ (w : WS RS) (bs : Bytes) (q : Nat), Rem root w.path bs → w.s.cur = none →
      (2 * todo root w.path ≤ k ∧ (∀ f up, w.path = f :: up → f.idx < f.node.links.length) ∨ 2 * todo root w.path + 1 ≤ k) →
      w.s.offset = q → q + bs.length < 2 ^ 63 →
      ∃ r w', iterate net root readVisitor k w = (r, w') ∧ IterRead net root w bs r w' by
    intro w bs q h1 h2 h3 h4 h5; exact H w bs q h1 h2 (.inr h3) h4 h5
  induction k with
  | zero =>
    intro w bs q hr hc hk hq hlt
    exfalso
    rcases hk with ⟨hk, hf⟩ | hk
    · obtain ⟨path, tick, s⟩ := w
      cases path with
      | nil => simp only [todo] at hk; rw [count_links] at hk; omega
      | cons f up =>
        have := hf f up rfl
        simp only [todo] at hk
        rw [drop_eq_cons (List.getElem?_eq_getElem this), countL_cons, count_links] at hk
        omega
    · omega
  | succ k ih =>
    intro w bs q hr hc hk hq hlt
    rw [iterate]
    rcases down_cases net root readVisitor w hr with ⟨f, up, hp, hn, hd⟩ | ⟨hx, hd⟩ | ⟨x, a, b, t, hx, hb, hbs, hcnt, ht, hd⟩
    · rw [hd]
      have hk' : 2 * todo root w.path ≤ k := by
        rcases hk with ⟨_, hf⟩ | hk
        · have := hf f up hp
          rw [List.getElem?_eq_none_iff] at hn; omega
        · omega
      rw [hp] at hr
      rcases climb_top root hr hn with ⟨p', h1, h2, h3, h4⟩ | ⟨p', h1, h2, h3, h4, h5⟩
      · simp only [hp, h1]
        obtain ⟨r, w', hi, hR⟩ := ih { w with path := p' } bs q h2 hc (.inl ⟨by rw [hp] at hk'; simpa [h3] using hk',
          by obtain ⟨f', up', h4, h4'⟩ := h4; intro g u hg; simp only [h4, List.cons.injEq] at hg; rw [← hg.1]; exact h4'⟩) hq hlt
        exact ⟨r, w', hi, hR.ex, by have := hR.todo_le; rw [hp, ← h3]; exact this, hR.tick_le, hR.paused, hR.short, hR.err⟩
      · simp only [hp, h1]
        refine ⟨_, _, rfl, ⟨[], [], by simp [h2, hc], h3, by simp, by simp, by simp, by simp [hc]⟩, by simp [h4], by simp, by simp, ?_, by simp⟩
        intro _
        rcases Nat.eq_zero_or_pos w.s.space with h0 | h0
        · exact .inr h0
        · exact .inl (Nat.ne_of_gt h0)
    · rw [hd]
      refine ⟨_, _, rfl, ⟨[], bs, by simp [hc], hr, by simp, by simp, by simp, by simp⟩, by simp, by simp, by simp, ?_, ?_⟩
      · intro _
        rcases Nat.eq_zero_or_pos w.s.space with h0 | h0
        · exact .inr h0
        · exact .inl (Nat.ne_of_gt h0)
      · intro e he; simp only [WalkEnd.err.injEq] at he
        obtain ⟨y, hy⟩ := hx
        exact ⟨he.symm, w.tick, y, Nat.le_refl _, hy⟩
    · rw [hd]
      have hk' : 2 * (x.count + todoUp w.path) ≤ k + 1 := by rw [hcnt]; omega
      have htv := todo_visit root x w.path
      by_cases hl : x.links = []
      · have hread := content_leaf hl hx
        have hv : readVisitor x w.s = (if (w.s.space - (a.take w.s.space).length) = 0 then .pause else .cont, 0,
            { cur := if a.drop w.s.space = [] then none else some (a.drop w.s.space), offset := w.s.offset + (a.take w.s.space).length,
              out := w.s.out ++ a.take w.s.space, space := w.s.space - (a.take w.s.space).length }) := by
          simp only [readVisitor, hl, ne_eq, not_true_eq_false, if_false, hread]
          rw [readBuf_some w.s a q hq (by rw [hbs] at hlt; simp at hlt; omega)]
        have hlen : (a.take w.s.space).length = min w.s.space a.length := by simp
        by_cases hz : w.s.space - (a.take w.s.space).length = 0
        · simp only [visitChild, hv, hz, if_true]
          refine ⟨_, _, rfl, ⟨a.take w.s.space, b, ?_, rem_leaf root hl hb, rfl, by simp only [hlen]; omega, rfl, by simp⟩, ?_, ht, by simp, by simp, by simp⟩
          · show bs = _
            by_cases hdr : a.drop w.s.space = []
            · simp only [hdr, if_true, Option.getD_none, List.nil_append, hbs]
              congr 1
              conv_lhs => rw [← List.take_append_drop w.s.space a, hdr, List.append_nil]
            · simp only [hdr, if_false, Option.getD_some, hbs, ← List.append_assoc, List.take_append_drop]
          · show todo root (⟨x, 0⟩ :: w.path) ≤ _; omega
        · have hdr : a.drop w.s.space = [] := List.drop_eq_nil_of_le (by rw [hlen] at hz; omega)
          have htk : a.take w.s.space = a := List.take_of_length_le (by rw [hlen] at hz; omega)
          simp only [visitChild, hv, hz, if_false, hdr, if_true]
          simp only [htk] at hz ⊢
          obtain ⟨r, w', hi, hR⟩ := ih { path := ⟨x, 0⟩ :: w.path, tick := t, s := { cur := none, offset := w.s.offset + a.length, out := w.s.out ++ a, space := w.s.space - a.length } } b (q + a.length)
            (rem_leaf root hl hb) rfl (.inr (by show 2 * todo root (⟨x, 0⟩ :: w.path) + 1 ≤ k; omega)) (by simp [hq]) (by rw [hbs] at hlt; simp at hlt; omega)
          refine ⟨r, w', hi, ?_, by have := hR.todo_le; simp only at this; omega, by have := hR.tick_le; simp only at this; omega, hR.paused, ?_, ?_⟩
          · obtain ⟨got, b', h1, h2, h3, h4, h5, h6⟩ := hR.ex
            refine ⟨a ++ got, b', by rw [hbs, h1]; simp, h2, by simp [h3], ?_, by simp only at h5; simp [h5]; omega, h6⟩
            simp only at h4; simp only [List.length_append]; omega
          · intro hp; rcases hR.short hp with h | h
            · exact .inl h
            · exact absurd h hz
          · intro e he; obtain ⟨h1, t', y, h2, h3⟩ := hR.err e he
            exact ⟨h1, t', y, by simp only at h2; omega, h3⟩
      · have hv : readVisitor x w.s = (.cont, 0, w.s) := by simp [readVisitor, hl]
        simp only [visitChild, hv]
        obtain ⟨r, w', hi, hR⟩ := ih { path := ⟨x, 0⟩ :: w.path, tick := t, s := w.s } bs q
            (by rw [hbs]; exact rem_internal root hl hx hb) hc (.inr (by show 2 * todo root (⟨x, 0⟩ :: w.path) + 1 ≤ k; omega)) hq hlt
        refine ⟨r, w', hi, hR.ex, by have := hR.todo_le; simp only at this; omega, by have := hR.tick_le; simp only at this; omega, hR.paused, hR.short, ?_⟩
        intro e he; obtain ⟨h1, t', y, h2, h3⟩ := hR.err e he
        exact ⟨h1, t', y, by simp only at h2; omega, h3⟩

end Unixfs.Reader
