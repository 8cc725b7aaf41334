import Verif.Reader.Terminate
import Verif.Reader.Contract

/-!
# Walks over any DAG that end without an error

The definitions in this file belong to proofs; they model no code.
-/

namespace Unixfs.Reader
open Unixfs Unixfs.Spec

/-- A visitor that passes nodes with links, and stops at leaves it cannot read. -/
structure Strict {σ : Type} (v : Visitor σ) : Prop where
  inner : ∀ n s, n.links ≠ [] → v n s = (.cont, 0, s)
  fails : ∀ n s e, (v n s).1 = .fail e → e ≠ .notFound ∧ e ≠ .eof
  leaf : ∀ n s, n.links = [] → (v n s).2.1 = 0 ∧ ((∃ d, readUnixFSNodeData n = .ok d) ∨ ∃ e, (v n s).1 = .fail e)

theorem data_err {n : Node} {e : Err} (h : readUnixFSNodeData n = .error e) : e ≠ .notFound ∧ e ≠ .eof := by
  unfold readUnixFSNodeData at h
  constructor <;> (rintro rfl; (repeat' split at h) <;> simp_all)

theorem strict_read : Strict readVisitor where
  inner n s h := by rw [readVisitor, if_pos h]
  fails n s e h := by
    unfold readVisitor at h
    split at h
    · cases h
    · split at h
      · next he => cases h; exact data_err he
      · dsimp only at h; split at h <;> cases h
  leaf n s h := by
    rw [readVisitor, if_neg (by simpa using h)]
    split
    · exact ⟨rfl, .inr ⟨_, rfl⟩⟩
    · next d hd => exact ⟨rfl, .inl ⟨d, hd⟩⟩

theorem strict_write (w : Writer) : Strict (writeVisitor w) where
  inner n s h := by rw [writeVisitor, if_pos h]
  fails n s e h := by
    unfold writeVisitor at h
    split at h
    · cases h
    · split at h
      · next he => cases h; exact data_err he
      · split at h <;> cases h
        simp
  leaf n s h := by
    rw [writeVisitor, if_neg (by simpa using h)]
    split
    · exact ⟨rfl, .inr ⟨_, rfl⟩⟩
    · next d hd =>
      split
      · exact ⟨rfl, .inl ⟨d, hd⟩⟩
      · exact ⟨rfl, .inl ⟨d, hd⟩⟩

theorem leaf_content {n : Node} {d : Bytes} (h : n.links = []) (hr : readUnixFSNodeData n = .ok d) : content n = some d := by
  match n with
  | .raw .. => simpa [content, readUnixFSNodeData] using hr
  | .other _ => simp [readUnixFSNodeData] at hr
  | .proto d' [] _ =>
    simp only [readUnixFSNodeData, FSNode.fromBytes] at hr
    simp only [content]
    cases hu : Pb.Data.unmarshal d' with
    | error e => simp [hu] at hr
    | ok m =>
      simp only [hu] at hr ⊢
      have ht := isFileMsg_type (unmarshal_typ hu |>.elim fun t h => by rw [h]; rfl)
      by_cases hm : IsFileMsg m
      · rw [if_pos (ht.mp hm)] at hr
        rw [if_pos hm]
        simpa [FSNode.data, Pb.Data.getData] using hr
      · rw [if_neg (fun h => hm (ht.mpr h))] at hr
        cases hr
  | .proto _ (l :: ls) _ => simp [Node.links] at h

/-- There are bytes still to visit: all leaves to come can be read. -/
def Clear (root : Node) (p : List Frame) : Prop := ∃ bs, Rem root p bs

theorem contentL_mk {l : Link} {ls : List Link} {a b : Bytes} (ha : content l.target = some a) (hb : contentL ls = some b) : contentL (l :: ls) = some (a ++ b) := by
  obtain ⟨p, q, n⟩ := l
  simp only [contentL, Link.target] at ha ⊢
  rw [ha, hb]

theorem climb_back_up (root : Node) : ∀ (p : List Frame), UpOK p → p ≠ [] → ∀ b p', climb p = (b, p') → (b = true → Clear root p') → ∃ bs, RemUp p bs := by
  intro p
  induction p with
  | nil => intro _ h; exact absurd rfl h
  | cons f rest ih =>
    intro ⟨hi, hup⟩ _ b p' hc hp
    have hn : nextIdx f = f.idx + 1 := by simp only [nextIdx]; split <;> omega
    by_cases he : f.idx + 1 = f.node.links.length
    · have hd : f.node.links.drop (f.idx + 1) = [] := List.drop_eq_nil_of_le (by omega)
      cases rest with
      | nil => exact ⟨[], [], [], by rw [hd]; rfl, rfl, rfl, hi⟩
      | cons g up =>
        have h1 : climb (f :: g :: up) = climb (g :: up) := by rw [climb]; simp [hn, he]
        rw [h1] at hc
        obtain ⟨bs, h2⟩ := ih hup (by simp) b p' hc hp
        exact ⟨bs, [], bs, by rw [hd]; rfl, h2, rfl, hi⟩
    · have h1 : climb (f :: rest) = (true, ⟨f.node, f.idx + 1⟩ :: rest) := by rw [climb.eq_def]; simp [hn, he]
      rw [h1] at hc
      cases hc
      obtain ⟨bs, x, y, hx, hy, hbs, _⟩ := hp rfl
      exact ⟨bs, x, y, hx, hy, hbs, hi⟩

theorem climb_back (root : Node) {f : Frame} {up : List Frame} (h : PathOK (f :: up)) (hn : f.node.links[f.idx]? = none) {b : Bool} {p' : List Frame}
    (hc : climb (f :: up) = (b, p')) (hp : b = true → Clear root p') : Clear root (f :: up) := by
  obtain ⟨hi, hup⟩ := h
  have hlen : f.node.links.length ≤ f.idx := List.getElem?_eq_none_iff.mp hn
  have hni : nextIdx f = f.node.links.length := by simp only [nextIdx]; split <;> omega
  have hd : f.node.links.drop f.idx = [] := List.drop_eq_nil_of_le hlen
  cases up with
  | nil => exact ⟨[], [], [], by rw [hd]; rfl, rfl, rfl, hi⟩
  | cons g up =>
    have h1 : climb (f :: g :: up) = climb (g :: up) := by rw [climb]; simp [hni]
    rw [h1] at hc
    obtain ⟨bs, h2⟩ := climb_back_up root (g :: up) hup (by simp) b p' hc hp
    exact ⟨bs, [], bs, by rw [hd]; rfl, h2, rfl, hi⟩

/-- What is below a visited node was below the path it was reached on. -/
theorem visit_back {root x : Node} {path : List Frame} {i : Nat} (hi : i = 0) (hx : x.links ≠ [] ∨ ∃ d, readUnixFSNodeData x = .ok d) (h : Clear root (⟨x, i⟩ :: path)) :
    ∃ a b, content x = some a ∧ RemUp path b := by
  subst hi
  obtain ⟨_, a, b, ha, hb, _, _⟩ := h
  rw [List.drop_zero] at ha
  by_cases hl : x.links = []
  · obtain ⟨d, hd⟩ := hx.resolve_left (by simpa using hl)
    exact ⟨d, b, leaf_content hl hd, hb⟩
  · exact ⟨a, b, by rw [content_internal hl]; exact ha, hb⟩

theorem down_back {σ : Type} {net : Net} {root : Node} {v : Visitor σ} (hv : Strict v) {w w' : WS σ} (h : PathOK w.path) {r : Down} (hd : down net root v w = (r, w'))
    (hr : r = .ok ∨ r = .paused) (hc : Clear root w'.path) : Clear root w.path := by
  have key : ∀ x (path : List Frame) t s, visitChild v x path t s = (r, w') → ∃ a b, content x = some a ∧ RemUp path b := by
    intro x path t s hx
    by_cases hl : x.links = []
    · have h1 := hv.leaf x s hl
      rw [visitChild] at hx
      rcases h2 : v x s with ⟨rr, i, s'⟩
      rw [h2] at hx h1
      dsimp only at hx h1
      cases hx
      rcases h1 with ⟨hi, h3 | ⟨e, he⟩⟩
      · exact visit_back hi (.inr h3) hc
      · subst he; simp at hr
    · rw [visitChild, hv.inner x s hl] at hx
      cases hx
      exact visit_back rfl (.inl hl) hc
  obtain ⟨path, tick, s⟩ := w
  cases path with
  | nil =>
    obtain ⟨a, b, ha, hb⟩ := key root [] tick s hd
    exact ⟨a, ha⟩
  | cons f up =>
    obtain ⟨hi, hup⟩ := h
    simp only [down] at hd
    split at hd
    · cases hd; simp at hr
    · next l hl =>
      split at hd
      · obtain ⟨a, _, ha, y, b, hy, hb, _, _⟩ := key _ _ _ _ hd
        refine ⟨_, a ++ y, b, ?_, hb, rfl, hi⟩
        rw [drop_eq_cons hl]
        exact contentL_mk ha hy
      · cases hd; simp at hr

theorem down_pathOK {σ : Type} {net : Net} {root : Node} {v : Visitor σ} (hv : Strict v) {w w' : WS σ} (h : PathOK w.path) {r : Down} (hd : down net root v w = (r, w')) :
    PathOK w'.path := by
  rcases down_casesOK net root v w h with ⟨f, up, _, _, h1⟩ | h1 | ⟨x, t, hu, _, h1⟩
  · rw [h1] at hd; cases hd; exact h
  · rw [h1] at hd; cases hd; exact h
  · rw [h1, visitChild] at hd
    have hi : (v x w.s).2.1 = 0 := by
      by_cases hl : x.links = []
      · exact (hv.leaf x w.s hl).1
      · rw [hv.inner x w.s hl]
    rcases h2 : v x w.s with ⟨rr, i, s'⟩
    rw [h2] at hd hi
    dsimp only at hd hi
    cases hd
    subst hi
    exact ⟨Nat.zero_le _, hu⟩

theorem down_err {σ : Type} {net : Net} {root : Node} {v : Visitor σ} (hv : Strict v) {w w' : WS σ} {e : Err} (hd : down net root v w = (.err e, w')) :
    e ≠ .eof ∧ (e = .notFound → w'.path = w.path) := by
  have key : ∀ x (path : List Frame) t s, visitChild v x path t s = (.err e, w') → e ≠ .eof ∧ e ≠ .notFound := by
    intro x path t s hx
    have h1 := hv.fails x s
    rw [visitChild] at hx
    rcases h2 : v x s with ⟨rr, i, s'⟩
    rw [h2] at hx h1
    dsimp only at hx h1
    cases rr with
    | cont => cases hx
    | pause => cases hx
    | fail e' => cases hx; exact ⟨(h1 e rfl).2, (h1 e rfl).1⟩
  unfold down at hd
  split at hd
  · have := key _ _ _ _ hd; exact ⟨this.1, fun h => absurd h this.2⟩
  · split at hd
    · cases hd
    · split at hd
      · have := key _ _ _ _ hd; exact ⟨this.1, fun h => absurd h this.2⟩
      · cases hd; exact ⟨by simp, fun _ => rfl⟩

/-- A walk that comes to the end, or to a place from which all can be read, started at such a place. -/
theorem iterate_back {σ : Type} {net : Net} {root : Node} {v : Visitor σ} (hv : Strict v) : ∀ (k : Nat) (w w' : WS σ) (r : WalkEnd), PathOK w.path →
    iterate net root v k w = (r, w') →
      PathOK w'.path ∧ r ≠ .err .eof ∧ (r = .endOfDag ∨ (r = .paused ∨ r = .err .notFound) ∧ Clear root w'.path → Clear root w.path)
  | 0, w, w', r, h, hi => by rw [iterate] at hi; cases hi; exact ⟨h, by simp, by simp⟩
  | k + 1, w, w', r, h, hi => by
    rw [iterate] at hi
    rcases hd : down net root v w with ⟨d, w1⟩
    have h1 := down_pathOK hv h hd
    rw [hd] at hi
    cases d with
    | ok =>
      dsimp only at hi
      obtain ⟨h2, h2', h3⟩ := iterate_back hv k w1 w' r h1 hi
      exact ⟨h2, h2', fun hr => down_back hv h hd (.inl rfl) (h3 hr)⟩
    | paused =>
      cases hi
      exact ⟨h1, by simp, fun hr => down_back hv h hd (.inr rfl) (by simpa using hr)⟩
    | err e =>
      cases hi
      obtain ⟨h2, h3⟩ := down_err hv hd
      refine ⟨h1, by simpa using h2, ?_⟩
      rintro (hr | ⟨hr | hr, hc⟩)
      · cases hr
      · cases hr
      · cases hr; rw [h3 rfl] at hc; exact hc
    | noChild =>
      rcases down_casesOK net root v w h with ⟨f, up, hp, hn, h2⟩ | h2 | ⟨x, t, _, _, h2⟩
      · rw [hd] at h2
        obtain rfl : w1 = w := by cases h2; rfl
        dsimp only at hi
        rw [hp] at hi h
        rcases hc : climb (f :: up) with ⟨b, p⟩
        rw [hc] at hi
        rw [hp]
        have h4 : PathOK p := by
          rcases climb_topOK root h hn with ⟨p', e, hp', _⟩ | ⟨p', e, hp', _⟩ <;> · rw [hc] at e; cases e; exact hp'
        cases b with
        | true =>
          dsimp only at hi
          obtain ⟨h5, h5', h6⟩ := iterate_back hv k { w1 with path := p } w' r h4 hi
          exact ⟨h5, h5', fun hr => climb_back root h hn hc (fun _ => h6 hr)⟩
        | false =>
          dsimp only at hi
          cases hi
          exact ⟨h4, by simp, fun _ => climb_back root h hn hc (fun h => by cases h)⟩
      · rw [hd] at h2; cases h2
      · rw [hd, visitChild] at h2
        rcases h5 : v x w.s with ⟨rr, i, s'⟩
        rw [h5] at h2
        dsimp only at h2
        cases rr <;> cases h2

theorem writeTo_back {net : Net} {dr : DR} {w : Writer} (h : PathOK dr.path) (he : (dr.writeTo net w).1.err = none) : Clear dr.root dr.path := by
  unfold DR.writeTo at he
  dsimp only at he
  split at he
  · cases he
  · next s hs =>
    have hq := (iterate_keeps (net := net) (root := dr.root) (v := writeVisitor w) (P := fun _ => True) (Q := fun _ => False) (fun _ _ _ => trivial) (by
        intro n s _ hp
        unfold writeVisitor at hp
        split at hp
        · cases hp
        · split at hp
          · cases hp
          · split at hp <;> cases hp) (walkFuel dr.root) { path := dr.path, tick := dr.tick, s := s } trivial).2
    rcases hi : iterate net dr.root (writeVisitor w) (walkFuel dr.root) { path := dr.path, tick := dr.tick, s := s } with ⟨r, x⟩
    rw [hi] at he hq
    dsimp only at he
    have := (iterate_back (strict_write w) _ _ _ _ h hi).2.2
    cases r with
    | endOfDag => exact this (.inl rfl)
    | err e => cases he
    | paused => exact absurd (hq rfl) id

theorem read_back {net : Net} {dr : DR} {k : Nat} (h : PathOK dr.path) :
    PathOK (dr.read net k).2.path ∧ (dr.read net k).2.root = dr.root ∧
      ((dr.read net k).1.err = some .eof ∨ ((dr.read net k).1.err = none ∨ (dr.read net k).1.err = some .notFound) ∧ Clear dr.root (dr.read net k).2.path → Clear dr.root dr.path) := by
  simp only [DR.read]
  generalize (if dr.cur.isSome = true then RS.readBuf { cur := dr.cur, offset := dr.offset, out := [], space := k } else
    { cur := dr.cur, offset := dr.offset, out := [], space := k }) = s
  split
  · exact ⟨h, rfl, by simp⟩
  · rcases hi : iterate net dr.root readVisitor (walkFuel dr.root) { path := dr.path, tick := dr.tick, s := s } with ⟨r, x⟩
    obtain ⟨h1, h1', h2⟩ := iterate_back strict_read _ _ _ _ (by exact h) hi
    refine ⟨h1, rfl, ?_⟩
    dsimp only
    cases r with
    | endOfDag => exact fun _ => h2 (.inl rfl)
    | paused => simp only [reduceCtorEq, true_or, true_and, false_or]; exact fun hc => h2 (.inr ⟨.inl rfl, hc⟩)
    | err e =>
      rintro (hr | ⟨hr | hr, hc⟩)
      · cases hr; exact absurd rfl h1'
      · cases hr
      · cases hr; exact h2 (.inr ⟨.inr rfl, hc⟩)

theorem reads_back {net : Net} : ∀ (ks : List Nat) {dr dr' : DR} {rs : List Res} {r : Res}, PathOK dr.path → dr.run net (ks.map .read) = (rs ++ [r], dr') →
    (∀ x ∈ rs, x.err = none ∨ x.err = some .notFound) → r.err = some .eof → Clear dr.root dr.path
  | [], dr, dr', rs, r, _, h, _, _ => by simp [DR.run] at h
  | k :: ks, dr, dr', rs, r, hp, h, hrs, hr => by
    obtain ⟨h1, h2, h3⟩ := read_back (net := net) (k := k) hp
    rw [List.map_cons, run_cons] at h
    cases rs with
    | nil =>
      simp only [List.nil_append, Prod.mk.injEq, List.cons.injEq] at h
      refine h3 (.inl ?_)
      show (dr.step net (.read k)).1.err = _
      rw [h.1.1]; exact hr
    | cons x rs =>
      simp only [List.cons_append, Prod.mk.injEq, List.cons.injEq] at h
      have hx : (dr.read net k).1 = x := h.1.1
      refine h3 (.inr ⟨?_, ?_⟩)
      · rw [hx]; exact hrs x (List.mem_cons_self ..)
      · rw [← h2]
        exact reads_back ks (dr' := dr') h1 (Prod.ext h.1.2 h.2) (fun y hy => hrs y (List.mem_cons_of_mem _ hy)) hr

end Unixfs.Reader
