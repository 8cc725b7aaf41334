import Verif.Import.Kin
import Verif.Import.Fill
import Verif.Import.AppendLemmas

/-! # The shape of files after many calls of `Append` (C97)

`Append` miscounts the depth of sub-graphs by one or two (C18), so that after several calls a file is no
trickle DAG any more. `Loose` is what remains: bounds on the depth of sub-graphs from above, and on the
number of their leaves from below.

The definitions in this file belong to proofs; they model no code.
-/

namespace Unixfs.Import.Trickle
open Unixfs.Spec

/-- The lower bound for the leaves of a sub-graph of depth `k`. -/
def lo (k : Nat) : Nat := 2 ^ (k / 3)

theorem lo_mono {a b : Nat} (h : a ≤ b) : lo a ≤ lo b := Nat.pow_le_pow_right (by decide) (Nat.div_le_div_right h)

theorem lo_pos (k : Nat) : 1 ≤ lo k := Nat.one_le_two_pow

theorem lo_small {k : Nat} (h : k < 3) : lo k = 1 := by
  unfold lo; rw [Nat.div_eq_of_lt h]; rfl

theorem lo_three (k : Nat) : lo (k + 3) = 2 * lo k := by
  unfold lo; rw [Nat.add_div_right _ (by decide), pow_succ]; omega

/-- As many block sizes as links. -/
def Counted : Node → Prop
  | .proto d ls _ => ∀ m, Pb.Data.unmarshal d = .ok m → m.blocksizes.length = ls.length
  | _ => True

/-- The number of leaves. -/
def cnt (n : Node) : Nat := (leaves n).length

def cntL (ls : List Link) : Nat := (leavesL ls).length

/-- A node with no links. -/
def Leafy (n : Node) : Prop := n.links = []

/-- The children of a node: the first `m` fulfil `Z` (they are leaves, in what this code builds), the `i`-th of the others fulfils `U i` and has, unless
it is the last one (or `c`), a minimum of leaves. -/
def Shape (m s : Nat) (Z : Node → Prop) (U : Nat → Node → Prop) (c : Prop) (ls : List Link) : Prop :=
  ∀ i l, ls[i]? = some l → (i < m → Z l.target) ∧ (m ≤ i → U i l.target) ∧ (m ≤ i → (i + 1 < ls.length ∨ c) → lo (kd m i - s) ≤ cnt l.target)

/-- A sub-graph of depth at most `D`. -/
def Loose (m : Nat) : Nat → Node → Prop
  | 0, n => Counted n ∧ n.links = []
  | D + 1, n => Counted n ∧ n.links.length ≤ m + depthRepeat * D ∧ Shape m 1 Leafy (fun _ => Loose m D) False n.links

/-- The links of a root. -/
def RootLoose (m : Nat) (Z : Node → Prop) (c : Prop) (ls : List Link) : Prop := Shape m 2 Z (fun i => Loose m (kd m i + 1)) c ls

theorem Shape.mono {m s s' : Nat} {Z : Node → Prop} {U U' : Nat → Node → Prop} {c c' : Prop} {ls : List Link} (h : Shape m s Z U c ls) (hs : s ≤ s') (hU : ∀ i n, m ≤ i → i < ls.length → U i n → U' i n) (hc : c' → c) :
    Shape m s' Z U' c' ls := by
  intro i l hl
  obtain ⟨h1, h2, h3⟩ := h i l hl
  have hi : i < ls.length := by by_contra hn; rw [List.getElem?_eq_none (by omega)] at hl; cases hl
  exact ⟨h1, fun hm => hU i _ hm hi (h2 hm), fun hm h => le_trans (lo_mono (by omega)) (h3 hm (h.imp id hc))⟩

theorem Loose.succ {m : Nat} : ∀ {D : Nat} {n : Node}, Loose m D n → Loose m (D + 1) n
  | 0, n, h => ⟨h.1, by rw [h.2]; simp, by intro i l hl; rw [h.2] at hl; simp at hl⟩
  | D + 1, n, h => by
    refine ⟨h.1, le_trans h.2.1 (by simp only [depthRepeat]; omega), ?_⟩
    exact Shape.mono h.2.2 (le_refl _) (fun i n _ _ hn => Loose.succ hn) id

theorem Loose.mono {m D D' : Nat} {n : Node} (hD : D ≤ D') (h : Loose m D n) : Loose m D' n := by
  induction hD with
  | refl => exact h
  | step _ ih => exact ih.succ

theorem cntL_append (a b : List Link) : cntL (a ++ b) = cntL a + cntL b := by
  unfold cntL; rw [leavesL_append]; simp

theorem cntL_cons (l : Link) (ls : List Link) : cntL (l :: ls) = cnt l.target + cntL ls := by
  cases l; unfold cntL cnt; simp [leavesL, Link.target]

mutual
theorem cnt_pos : ∀ (n : Node), 1 ≤ cnt n
  | .raw _ _ => by simp [cnt, leaves]
  | .other _ => by simp [cnt, leaves]
  | .proto _ [] _ => by simp [cnt, leaves]
  | .proto _ (.mk a b n :: ls) _ => by
    have := cnt_pos n
    simp only [cnt, leaves, leavesL, List.length_append] at this ⊢
    omega
end

theorem cnt_le_cntL (n : Node) (h : n.links ≠ []) : cnt n = cntL n.links := by
  cases n with
  | proto d ls b =>
    cases ls with
    | nil => simp [Node.links] at h
    | cons l ls => simp [cnt, cntL, leaves, Node.links]
  | raw => simp [Node.links] at h
  | other => simp [Node.links] at h

theorem cnt_ge (n : Node) : cntL n.links ≤ cnt n := by
  by_cases h : n.links = []
  · rw [h]; simp [cntL, leavesL]
  · rw [cnt_le_cntL n h]

theorem length_le_cntL : ∀ (ls : List Link), ls.length ≤ cntL ls
  | [] => by simp
  | l :: ls => by
    have := length_le_cntL ls
    have := cnt_pos l.target
    rw [cntL_cons, List.length_cons]; omega

theorem cntL_drop (ls : List Link) (i : Nat) : cntL (ls.drop i) ≤ cntL ls := by
  rw [← List.take_append_drop i ls, cntL_append]
  simp

theorem first_cnt {x : Nat} : ∀ (k : Nat) (ls : List Link), k ≤ ls.length → (∀ j l, ls[j]? = some l → j < k → x ≤ cnt l.target) → k * x ≤ cntL ls
  | 0, _, _, _ => by simp
  | k + 1, l :: ls, hl, h => by
    have h1 := h 0 l rfl (by omega)
    have h2 := first_cnt k ls (by simpa using hl) (fun j l hj hk => h (j + 1) l (by simpa using hj) (by omega))
    rw [cntL_cons, Nat.succ_mul]; omega

/-- Some children that have a minimum of leaves. -/
theorem some_cnt (k : Nat) (ls : List Link) (i x : Nat) (h : ∀ j l, ls[j]? = some l → i ≤ j → j < i + k → x ≤ cnt l.target) (hl : i + k ≤ ls.length) : k * x ≤ cntL ls := by
  refine le_trans ?_ (cntL_drop ls i)
  refine first_cnt k _ (by rw [List.length_drop]; omega) ?_
  intro j l hj h3
  rw [List.getElem?_drop] at hj
  exact h _ l hj (by omega) (by omega)

theorem kd_of {m i : Nat} (h : m ≤ i) : kd m i = (i - m) / 4 + 1 := by
  unfold kd; rw [if_neg (by omega)]; rfl

/-- A node with many children has many leaves. -/
theorem Shape.many {m s : Nat} {Z : Node → Prop} {U : Nat → Node → Prop} {c : Prop} {ls : List Link} (h : Shape m s Z U c ls) (hs : 1 ≤ s) {k : Nat}
    (hl : m + 4 * k ≤ ls.length) : lo (k + 3 - s) ≤ max 1 (cntL ls) := by
  by_cases hk : k = 0
  · rw [lo_small (by omega)]; exact le_max_left _ _
  · have := some_cnt 3 ls (m + 4 * (k - 1)) (lo (k - s)) (by
      intro j l hj h1 h2
      have := (h j l hj).2.2 (by omega) (.inl (by omega))
      rw [kd_of (by omega)] at this
      have he : (j - m) / 4 + 1 = k := by omega
      rwa [he] at this) (by omega)
    by_cases hks : s ≤ k
    · rw [show k + 3 - s = (k - s) + 3 by omega, lo_three]; exact le_trans (by omega) (le_max_right _ _)
    · rw [lo_small (by omega)]; exact le_max_left _ _

/-- Another child. -/
theorem Shape.snoc {m s : Nat} {Z : Node → Prop} {U : Nat → Node → Prop} {c : Prop} {ls : List Link} (h : Shape m s Z U True ls) {l : Link} (h1 : ls.length < m → Z l.target)
    (h2 : m ≤ ls.length → U ls.length l.target) (h3 : m ≤ ls.length → c → lo (kd m ls.length - s) ≤ cnt l.target) : Shape m s Z U c (ls ++ [l]) := by
  intro i x hx
  by_cases hi : i < ls.length
  · rw [List.getElem?_append_left hi] at hx
    obtain ⟨a, b, d⟩ := h i x hx
    exact ⟨a, b, fun hm _ => d hm (.inr trivial)⟩
  · have : i = ls.length := by
      by_contra hn
      rw [List.getElem?_eq_none (by simp; omega)] at hx; cases hx
    subst this
    simp only [List.getElem?_concat_length, Option.some.injEq] at hx
    subst hx
    refine ⟨h1, h2, fun hm hc => h3 hm ?_⟩
    rcases hc with hc | hc
    · simp at hc
    · exact hc

theorem Shape.leaves {m s : Nat} {Z : Node → Prop} {U : Nat → Node → Prop} {c c' : Prop} {ls new : List Link} (h : Shape m s Z U c ls) (hn : ∀ l ∈ new, Z l.target) (hl : new ≠ [] → ls.length + new.length ≤ m)
    (hc : c' → c) : Shape m s Z U c' (ls ++ new) := by
  by_cases he : new = []
  · subst he; rw [List.append_nil]; exact h.mono (le_refl _) (fun _ _ _ _ h => h) hc
  · have hl := hl he
    intro i x hx
    have hi : i < (ls ++ new).length := by by_contra hn; rw [List.getElem?_eq_none (by omega)] at hx; cases hx
    rw [List.length_append] at hi
    refine ⟨fun _ => ?_, fun hm => by omega, fun hm => by omega⟩
    by_cases hi : i < ls.length
    · rw [List.getElem?_append_left hi] at hx
      exact (h i x hx).1 (by omega)
    · rw [List.getElem?_append_right (by omega)] at hx
      exact hn x (List.mem_of_getElem? hx)

/-! ### The builder -/

/-- There is more to read (or an error). -/
def more (db : DB) : Prop := db.done.1 = false

theorem done_more' {db db' : DB} {b : Bool} (h : db.done = (b, db')) : (more db ↔ b = false) ∧ (more db' ↔ b = false) := by
  unfold more
  rw [h, done_done h]; simp

theorem add_more {db db' : DB} {b : Built} (h : db.add b = .ok db') : more db' ↔ more db := by
  unfold DB.add at h
  unfold more DB.done DB.prepareNext
  split at h <;> cases h <;> dsimp only <;> repeat' split
  all_goals simp_all

theorem done_max {db db' : DB} {b : Bool} (h : db.done = (b, db')) : db'.maxlinks = db.maxlinks := by
  unfold DB.done DB.prepareNext at h
  simp only at h
  repeat' split at h
  all_goals (cases h; rfl)

theorem next_max {db db' : DB} {d : Option Bytes} (h : db.next = .ok (d, db')) : db'.maxlinks = db.maxlinks := by
  unfold DB.next DB.prepareNext at h
  simp only at h
  repeat' split at h
  all_goals first | (cases h; done) | (cases h; rfl)

theorem add_max {db db' : DB} {b : Built} (h : db.add b = .ok db') : db'.maxlinks = db.maxlinks := by
  unfold DB.add at h
  split at h <;> first | (cases h; done) | (cases h; rfl)

/-- A node under construction. -/
structure Num (n : FSN) : Prop where
  wf : n.file.format.WF
  num : n.numChildren = n.links.length

theorem Num.new (db : DB) (t : UInt32) : Num (FSN.new db t) :=
  ⟨⟨rfl, by simp [FSN.new, FSNode.new, FSNode.updateFilesize], by simpa [FSN.new, FSNode.new, FSNode.updateFilesize] using Pb.UnkFields.nil⟩, rfl⟩

theorem addChild_num {n n' : FSN} {b : Built} {sz : UInt64} {db db' : DB} (h : n.addChild b sz db = .ok (n', db')) (hn : Num n) :
    Num n' ∧ n'.links = n.links ++ [makeLink [] b.node] ∧ (more db' ↔ more db) ∧ db'.maxlinks = db.maxlinks := by
  unfold FSN.addChild at h
  simp only at h
  split at h
  · cases h
  · next ha =>
    cases h
    refine ⟨⟨⟨hn.wf.typ, hn.wf.data, hn.wf.unrec⟩, ?_⟩, rfl, add_more ha, add_max ha⟩
    have := hn.num
    simp [FSN.numChildren, FSNode.numChildren, FSNode.addBlockSize, FSNode.updateFilesize] at this ⊢
    omega

theorem commit_num {n n' : FSN} {k : Node} (h : n.commit = .ok (k, n')) (hn : Num n) : Counted k ∧ k.links = n.links ∧ Num n' ∧ n'.links = n.links ∧ Counted n'.getDagNode := by
  unfold FSN.commit at h
  split at h
  · cases h
  · next b hb =>
    have hc : Counted (.proto b n.links n.builder) := by
      intro m hm
      obtain ⟨b', hb', hu⟩ := Pb.Data.unmarshal_marshal _ hn.wf
      rw [FSNode.getBytes, hb'] at hb
      cases hb
      rw [hu] at hm
      cases hm
      exact hn.num
    cases h
    exact ⟨hc, rfl, ⟨hn.wf, hn.num⟩, rfl, hc⟩

theorem newLeafDataNode_num {db db' : DB} {t : UInt32} {b : Built} {sz : UInt64} (h : db.newLeafDataNode t = .ok ((b, sz), db')) :
    b.node.links = [] ∧ db'.maxlinks = db.maxlinks := by
  unfold DB.newLeafDataNode at h
  split at h
  · cases h
  · next d db1 hn =>
    simp only at h
    split at h
    · cases h
    · next n hl =>
      have h1 := next_max hn
      have h2 : n.links = [] := by
        unfold DB.newLeafNode at hl
        split at hl
        · cases hl
        split at hl
        · cases hl; unfold DB.rawNode; split <;> rfl
        split at hl
        · cases hl
        · next hc =>
          cases hl
          unfold FSN.commit at hc
          split at hc <;> cases hc
          rfl
      cases h
      unfold DB.processFileStore
      split <;> exact ⟨h2, h1⟩

theorem fillLayerLoop_num : ∀ (k : Nat) (n : FSN) (db : DB) (n' : FSN) (db' : DB), DB.fillLayerLoop k n db = .ok (n', db') → Num n →
    Num n' ∧ db'.maxlinks = db.maxlinks ∧ ∃ new, n'.links = n.links ++ new ∧ (∀ l ∈ new, l.target.links = []) ∧ new.length ≤ k ∧ (more db' → new.length = k)
  | 0, n, db, n', db', h, hn => by cases h; exact ⟨hn, rfl, [], by simp, by simp, by simp, by simp⟩
  | k + 1, n, db, n', db', h, hn => by
    unfold DB.fillLayerLoop at h
    split at h
    · next he =>
      cases h
      exact ⟨hn, done_max he, [], by simp, by simp, by simp, fun hm => by have := (done_more' he).2.mp hm; simp at this⟩
    · next he =>
      split at h
      · cases h
      · next hl =>
        obtain ⟨h1, h2⟩ := newLeafDataNode_num hl
        split at h
        · cases h
        · next ha =>
          obtain ⟨h3, h4, h5, h6⟩ := addChild_num ha hn
          obtain ⟨h7, h8, new, h9, h10, h11, h12⟩ := fillLayerLoop_num k _ _ _ _ h h3
          refine ⟨h7, by rw [h8, h6, h2, done_max he], _ :: new, by rw [h9, h4, List.append_assoc]; rfl, ?_, by simp; omega, fun hm => by simp [h12 hm]⟩
          intro l hl
          rcases List.mem_cons.mp hl with rfl | hl
          · exact h1
          · exact h10 l hl

theorem fillNodeLayer_num {n n' : FSN} {db db' : DB} (h : DB.fillNodeLayer n db = .ok (n', db')) (hn : Num n) :
    Num n' ∧ Counted n'.getDagNode ∧ db'.maxlinks = db.maxlinks ∧ ∃ new, n'.links = n.links ++ new ∧ (∀ l ∈ new, l.target.links = []) ∧ new.length ≤ db.maxlinks - n.links.length ∧
      (more db' → new.length = db.maxlinks - n.links.length) := by
  unfold DB.fillNodeLayer at h
  rw [hn.num] at h
  split at h
  · cases h
  · next hl =>
    obtain ⟨h1, h2, new, h3, h4, h5, h6⟩ := fillLayerLoop_num _ _ _ _ _ hl hn
    split at h
    · cases h
    · next hc =>
      cases h
      obtain ⟨_, _, c1, c2, c3⟩ := commit_num hc h1
      exact ⟨c1, c3, h2, new, by rw [c2, h3], h4, h5, h6⟩

/-! ### Sub-graphs -/

/-- A function that builds sub-graphs of depth `D` that have, if they are full, as many leaves as those of depth `p`. -/
def SubLoose (m p D : Nat) (sub : DB → Except Err ((Node × UInt64) × DB)) : Prop :=
  ∀ db n sz db', sub db = .ok ((n, sz), db') → more db → db.maxlinks = m → Loose m D n ∧ db'.maxlinks = m ∧ (more db' → lo p ≤ cnt n)

/-- The loops that add sub-graphs. `U` is what the children must be. -/
theorem repeatLoop_loose {m s p D : Nat} {Z : Node → Prop} {U : Nat → Node → Prop} {sub} (hc : SubLoose m p D sub) : ∀ (k : Nat) (n : FSN) (db : DB) (n' : FSN) (db' : DB),
    repeatLoop sub k n db = .ok (n', db') → Num n → db.maxlinks = m → Shape m s Z U (more db) n.links → (more db → m ≤ n.links.length) →
    (∀ i x, n.links.length ≤ i → i < n.links.length + k → Loose m D x → U i x) → (∀ i, n.links.length ≤ i → i < n.links.length + k → kd m i - s ≤ p) →
    Num n' ∧ db'.maxlinks = m ∧ Shape m s Z U (more db') n'.links ∧ n.links.length ≤ n'.links.length ∧ n'.links.length ≤ n.links.length + k ∧ (more db' → n'.links.length = n.links.length + k)
  | 0, n, db, n', db', h, hn, hm, hs, hl, hU, hp => by cases h; exact ⟨hn, hm, hs, le_refl _, by omega, fun _ => rfl⟩
  | k + 1, n, db, n', db', h, hn, hm, hs, hl, hU, hp => by
    unfold repeatLoop at h
    split at h
    · next he =>
      cases h
      have := done_more' he
      exact ⟨hn, by rw [done_max he, hm], hs.mono (le_refl _) (fun _ _ _ _ h => h) (fun h => this.1.mpr (this.2.mp h)), le_refl _, by omega,
        fun h => by have := this.2.mp h; simp at this⟩
    · next he =>
      have hd := done_more' he
      have hmo : more db := hd.1.mpr rfl
      have hlen := hl hmo
      split at h
      · cases h
      · next hsub =>
        obtain ⟨h1, h2, h3⟩ := hc _ _ _ _ hsub (hd.2.mpr rfl) (by rw [done_max he, hm])
        split at h
        · cases h
        · next ha =>
          obtain ⟨h4, h5, h6, h7⟩ := addChild_num ha hn
          have hl1 := congrArg List.length h5
          simp only [List.length_append, List.length_cons, List.length_nil] at hl1
          obtain ⟨r1, r2, r3, r4, r5, r6⟩ := repeatLoop_loose (s := s) (Z := Z) (U := U) hc k _ _ _ _ h h4 (by rw [h7, h2]) (by
              rw [h5]
              refine Shape.snoc (hs.mono (le_refl _) (fun _ _ _ _ h => h) (fun _ => hmo)) (by omega) (fun _ => hU _ _ (le_refl _) (by omega) h1) ?_
              intro _ hmore
              exact le_trans (lo_mono (hp _ (le_refl _) (by omega))) (h3 (h6.mp hmore))) (fun _ => by omega)
            (fun i x h1 h2 => hU i x (by omega) (by omega)) (fun i h1 h2 => hp i (by omega) (by omega))
          exact ⟨r1, r2, r3, by omega, by omega, fun h => by have := r6 h; omega⟩

/-- Nodes have at least one leaf. -/
theorem cnt_max (n : Node) : max 1 (cntL n.links) ≤ cnt n := max_le (cnt_pos n) (cnt_ge n)

/-- The children of a new node. -/
theorem fresh_shape {n n' : FSN} {db db' : DB} (h : DB.fillNodeLayer n db = .ok (n', db')) (hn : Num n) {m s : Nat} {Z : Node → Prop} {U : Nat → Node → Prop} {c : Prop} (hm : db.maxlinks = m) (hl : n.links.length ≤ m)
    (hs : Shape m s Z U False n.links) (hZ : ∀ n, n.links = [] → Z n) :
    Num n' ∧ Counted n'.getDagNode ∧ db'.maxlinks = m ∧ Shape m s Z U c n'.links ∧ n'.links.length ≤ m ∧ (more db' → n'.links.length = m) := by
  obtain ⟨h1, h2, h3, new, h4, h5, h6, h7⟩ := fillNodeLayer_num h hn
  rw [hm] at h3 h6 h7
  refine ⟨h1, h2, h3, ?_, by rw [h4, List.length_append]; omega, fun hm => by rw [h4, List.length_append]; have := h7 hm; omega⟩
  rw [h4]
  have : Shape m s Z U False (n.links ++ new) := hs.leaves (fun l h => hZ _ (h5 l h)) (fun _ => by omega) id
  intro i x hx
  have hi : i < (n.links ++ new).length := by by_contra hn; rw [List.getElem?_eq_none (by omega)] at hx; cases hx
  rw [List.length_append] at hi
  exact ⟨(this i x hx).1, fun h => by omega, fun h => by omega⟩

theorem Shape.nil {m s : Nat} {Z : Node → Prop} {U : Nat → Node → Prop} {c : Prop} : Shape m s Z U c [] := by
  intro i x hx; simp at hx

theorem finish_loose {m D : Nat} {n : FSN} {k : Node} {sz : UInt64} {db db' : DB} (h : finish n db = .ok ((k, sz), db')) (hn : Num n) (hl : n.links.length ≤ m + 4 * D)
    (hs : Shape m 1 Leafy (fun _ => Loose m D) False n.links) : Loose m (D + 1) k ∧ db' = db ∧ k.links = n.links := by
  unfold finish at h
  split at h
  · cases h
  · next hc =>
    cases h
    obtain ⟨h1, h2, _⟩ := commit_num hc hn
    exact ⟨⟨h1, by rw [h2]; exact hl, by rw [h2]; exact hs⟩, rfl, h2⟩

/-- What `layers` does. -/
def LayersOK (m d : Nat) : Prop := ∀ (D : Nat) (n : FSN) (db : DB) (n' : FSN) (db' : DB), layers d n db = .ok (n', db') → Num n → db.maxlinks = m → Shape m 1 Leafy (fun _ => Loose m D) (more db) n.links →
  n.links.length ≤ m → (more db → n.links.length = m) → d ≤ D + 1 →
  Num n' ∧ db'.maxlinks = m ∧ Shape m 1 Leafy (fun _ => Loose m D) (more db') n'.links ∧ n'.links.length ≤ m + 4 * (d - 1) ∧ (more db' → n'.links.length = m + 4 * (d - 1))

theorem sub_loose {m d : Nat} (hL : LayersOK m d) : SubLoose m d (max d 1) (subTrickle d) := by
  intro db n sz db' h hmo hm
  unfold subTrickle fillTrickle at h
  split at h
  · cases h
  · next hf =>
    obtain ⟨h1, _, h3, h4, h5, h6⟩ := fresh_shape (s := 1) (Z := Leafy) (U := fun _ => Loose m (d - 1)) (c := True) hf (Num.new _ _) hm (by simp [FSN.new]) Shape.nil (fun _ h => h)
    split at h
    · cases h
    · next hl =>
      obtain ⟨l1, l2, l3, l4, l5⟩ := hL (d - 1) _ _ _ _ hl h1 h3 (h4.mono (le_refl _) (fun _ _ _ _ h => h) (fun _ => trivial)) h5 h6 (by omega)
      obtain ⟨f1, f2, f3⟩ := finish_loose (D := d - 1) h l1 l4 (l3.mono (le_refl _) (fun _ _ _ _ h => h) (fun h => h.elim))
      subst f2
      refine ⟨by rw [show max d 1 = d - 1 + 1 by omega]; exact f1, l2, fun hmore => ?_⟩
      have := l3.many (le_refl _) (k := d - 1) (by rw [l5 hmore])
      rw [← f3] at this
      exact le_trans (lo_mono (by omega)) (le_trans this (cnt_max n))

theorem layers_loose (m : Nat) : ∀ d, LayersOK m d
  | 0 => by
    intro D n db n' db' h hn hm hs hl he _
    cases h
    exact ⟨hn, hm, hs, by simpa using hl, by simpa using he⟩
  | d + 1 => by
    intro D n db n' db' h hn hm hs hl he hd
    unfold layers at h
    split at h
    · cases h
    · next hq =>
      obtain ⟨l1, l2, l3, l4, l5⟩ := layers_loose m d D _ _ _ _ hq hn hm hs hl he (by omega)
      split at h
      · next h0 =>
        subst h0
        cases h
        exact ⟨l1, l2, l3, by simpa using l4, by simpa using l5⟩
      split at h
      · next hdn =>
        cases h
        have := done_more' hdn
        refine ⟨l1, by rw [done_max hdn, l2], l3.mono (le_refl _) (fun _ _ _ _ h => h) (fun h => this.1.mpr (this.2.mp h)), le_trans l4 (by omega), fun h => by have := this.2.mp h; simp at this⟩
      · next hdn =>
        have hdm := done_more' hdn
        have l5 := l5 (hdm.1.mpr rfl)
        have hsub := sub_loose (layers_loose m d)
        rw [show max d 1 = d by omega] at hsub
        change repeatLoop (subTrickle d) depthRepeat _ _ = _ at h
        obtain ⟨r1, r2, r3, r4, r5, r6⟩ := repeatLoop_loose (s := 1) (Z := Leafy) (U := fun _ => Loose m D) hsub _ _ _ _ _ h l1 (by rw [done_max hdn, l2])
          (l3.mono (le_refl _) (fun _ _ _ _ h => h) (fun _ => hdm.1.mpr rfl)) (fun _ => by omega) (fun i x _ _ hx => hx.mono (by omega)) (fun i h1 h2 => by
            simp only [depthRepeat] at h2
            rw [kd_of (by omega)]; omega)
        simp only [depthRepeat] at r5 r6
        exact ⟨r1, r2, r3, by omega, fun h => by have := r6 h; omega⟩

theorem subTrickle_loose (m d : Nat) : SubLoose m d (max d 1) (subTrickle d) := sub_loose (layers_loose m d)

/-! ### Growing -/

theorem growLoop_loose {m s : Nat} {Z : Node → Prop} {U : Nat → Node → Prop} : ∀ (fuel i : Nat) (n : FSN) (db : DB) (n' : FSN) (db' : DB), growLoop fuel i n db = .ok (n', db') → Num n → db.maxlinks = m →
    Shape m s Z U (more db) n.links → (more db → m ≤ n.links.length ∧ n.links.length ≤ m + 4 * (i - 1) ∧ m + 4 * i ≤ n.links.length + 8 ∧ 1 ≤ i) →
    (∀ i j x, m ≤ j → kd m j ≤ i → i ≤ kd m j + 1 → Loose m (max i 1) x → U j x) → Num n' ∧ db'.maxlinks = m ∧ Shape m s Z U False n'.links
  | 0, i, n, db, n', db', h, hn, hm, hs, hl, hU => by
    unfold growLoop at h
    split at h
    · next hd => cases h; exact ⟨hn, by rw [done_max hd, hm], hs.mono (le_refl _) (fun _ _ _ _ h => h) (fun h => h.elim)⟩
    · cases h
  | fuel + 1, i, n, db, n', db', h, hn, hm, hs, hl, hU => by
    unfold growLoop at h
    split at h
    · next hd => cases h; exact ⟨hn, by rw [done_max hd, hm], hs.mono (le_refl _) (fun _ _ _ _ h => h) (fun h => h.elim)⟩
    · next hd =>
      have hdm := done_more' hd
      obtain ⟨l1, l2, l3, l4⟩ := hl (hdm.1.mpr rfl)
      split at h
      · cases h
      · next hr =>
        obtain ⟨r1, r2, r3, r4, r5, r6⟩ := repeatLoop_loose (s := s) (Z := Z) (U := U) (subTrickle_loose m i) _ _ _ _ _ hr hn (by rw [done_max hd, hm])
          (hs.mono (le_refl _) (fun _ _ _ _ h => h) (fun _ => hdm.1.mpr rfl)) (fun _ => l1) (fun j x h1 h2 hx => by
            simp only [depthRepeat] at h2
            have := kd_of (m := m) (i := j) (by omega)
            exact hU i j x (by omega) (by omega) (by omega) hx) (fun j h1 h2 => by
            simp only [depthRepeat] at h2
            rw [kd_of (by omega)]; omega)
        simp only [depthRepeat] at r5 r6
        exact growLoop_loose fuel (i + 1) _ _ _ _ h r1 r2 r3 (fun hm => by have := r6 hm; omega) hU

theorem boundedGrow_loose {m D : Nat} : ∀ (k i : Nat) (n : FSN) (db : DB) (n' : FSN) (db' : DB), boundedGrow k i n db = .ok (n', db') → Num n → db.maxlinks = m →
    Shape m 1 Leafy (fun _ => Loose m D) (more db) n.links → (more db → m ≤ n.links.length ∧ n.links.length ≤ m + 4 * (i - 1) ∧ 1 ≤ i) → n.links.length ≤ m + 4 * D → (1 ≤ k → i + k ≤ D + 1) →
    Num n' ∧ db'.maxlinks = m ∧ Shape m 1 Leafy (fun _ => Loose m D) False n'.links ∧ n'.links.length ≤ m + 4 * D ∧ (more db' → more db ∧ n'.links.length = n.links.length + 4 * k)
  | 0, i, n, db, n', db', h, hn, hm, hs, hl, hD, hk => by
    cases h; exact ⟨hn, hm, hs.mono (le_refl _) (fun _ _ _ _ h => h) (fun h => h.elim), hD, fun h => ⟨h, by omega⟩⟩
  | k + 1, i, n, db, n', db', h, hn, hm, hs, hl, hD, hk => by
    unfold boundedGrow at h
    split at h
    · next hd =>
      cases h
      have hdm := done_more' hd
      exact ⟨hn, by rw [done_max hd, hm], hs.mono (le_refl _) (fun _ _ _ _ h => h) (fun h => h.elim), hD, fun h => by have := hdm.2.mp h; simp at this⟩
    · next hd =>
      have hdm := done_more' hd
      obtain ⟨l1, l2, l3⟩ := hl (hdm.1.mpr rfl)
      have hk := hk (by omega)
      split at h
      · cases h
      · next hr =>
        obtain ⟨r1, r2, r3, r4, r5, r6⟩ := repeatLoop_loose (s := 1) (Z := Leafy) (U := fun _ => Loose m D) (subTrickle_loose m i) _ _ _ _ _ hr hn (by rw [done_max hd, hm])
          (hs.mono (le_refl _) (fun _ _ _ _ h => h) (fun _ => hdm.1.mpr rfl)) (fun _ => l1) (fun j x h1 h2 hx => hx.mono (by omega)) (fun j h1 h2 => by
            simp only [depthRepeat] at h2
            rw [kd_of (by omega)]; omega)
        simp only [depthRepeat] at r5 r6
        obtain ⟨g1, g2, g3, g4, g5⟩ := boundedGrow_loose k (i + 1) _ _ _ _ h r1 r2 r3 (fun hm => by have := r6 hm; omega) (by omega) (by omega)
        exact ⟨g1, g2, g3, g4, fun h => ⟨hdm.1.mpr rfl, by have := g5 h; have := r6 this.1; omega⟩⟩

/-! ### `Append` -/

theorem fromDag_num {d : Bytes} {ls : List Link} {b : Builder} {f : FSN} (h : FSN.fromDag d ls b = .ok f) (hc : Counted (.proto d ls b)) : Num f ∧ f.links = ls := by
  unfold FSN.fromDag at h
  split at h
  · cases h
  · next file hf =>
    cases h
    unfold FSNode.fromBytes at hf
    split at hf
    · cases hf
    · next m hm =>
      cases hf
      exact ⟨⟨Pb.Data.unmarshal_wf hm, hc m hm⟩, rfl⟩

theorem getChild_num {n f : FSN} {i : Nat} {g : Node → Bool} (h : n.getChild i g = .ok f) : ∃ l, n.links[i]? = some l ∧ (Counted l.target → Num f ∧ f.links = l.target.links) := by
  unfold FSN.getChild at h
  split at h
  · cases h
  · next l hl =>
    refine ⟨l, hl, fun hc => ?_⟩
    split at h
    · split at h
      · next ht => rw [ht] at hc ⊢; exact fromDag_num h hc
      · cases h
    · cases h

theorem removeChild_num {n f : FSN} (h : n.removeChild (n.numChildren - 1) = .ok f) (hn : Num n) : Num f ∧ f.links = n.links.take (n.links.length - 1) ∧ 0 < n.links.length := by
  unfold FSN.removeChild at h
  rw [hn.num] at h
  split at h
  · cases h
  · next file hf =>
    split at h
    · next hlt =>
      cases h
      unfold FSNode.removeBlockSize at hf
      have hnum := hn.num
      unfold FSN.numChildren FSNode.numChildren at hnum
      split at hf
      · cases hf
      · cases hf
        refine ⟨⟨⟨hn.wf.typ, hn.wf.data, hn.wf.unrec⟩, ?_⟩, ?_, by omega⟩
        · simp [FSN.numChildren, FSNode.numChildren, FSNode.updateFilesize, List.length_take, List.length_drop]
          omega
        · rw [List.drop_eq_nil_of_le (by omega), List.append_nil]
    · cases h

theorem Shape.dropLast {m s : Nat} {Z : Node → Prop} {U : Nat → Node → Prop} {c : Prop} {ls : List Link} (h : Shape m s Z U c ls) : Shape m s Z U True (ls.take (ls.length - 1)) := by
  intro i x hx
  rw [List.getElem?_take] at hx
  split at hx
  · obtain ⟨a, b, d⟩ := h i x hx
    exact ⟨a, b, fun hm _ => d hm (.inl (by omega))⟩
  · cases hx

/-- What `appendRec` does. -/
def RecLoose (m : Nat) (rec : FSN → DB → Int → Except Err ((FSN × UInt64) × DB)) : Prop :=
  ∀ (D : Nat) n db (d : Int) n' sz db', rec n db d = .ok ((n', sz), db') → Num n → db.maxlinks = m → n.links.length ≤ m + 4 * D → Shape m 1 Leafy (fun _ => Loose m D) False n.links → d ≤ D + 1 →
    Num n' ∧ db'.maxlinks = m ∧ n'.links.length ≤ m + 4 * D ∧ Shape m 1 Leafy (fun _ => Loose m D) False n'.links ∧ (more db' → lo d.toNat ≤ max 1 (cntL n'.links))

theorem appendFill_loose {m s : Nat} {Z : Node → Prop} {U : Nat → Node → Prop} {rec} (hrec : RecLoose m rec) {n n' : FSN} {depth rep : Nat} {db db' : DB} (h : appendFillLastChild rec n depth rep db = .ok (n', db'))
    (hn : Num n) (hm : db.maxlinks = m) (hs : Shape m s Z U False n.links)
    (hU : m < n.links.length → ∀ x, U (n.links.length - 1) x → ∃ D, Loose m (D + 1) x ∧ ((depth : Int) - 1 ≤ D + 1) ∧ ∀ y, Loose m (D + 1) y → U (n.links.length - 1) y)
    (hp : m < n.links.length → kd m (n.links.length - 1) - s ≤ depth - 1)
    (hnew : m < n.links.length → rep ≠ 0 → ∀ i, n.links.length ≤ i → i < n.links.length + (4 - rep) → kd m i - s ≤ depth ∧ ∀ x, Loose m (max depth 1) x → U i x) :
    Num n' ∧ db'.maxlinks = m ∧ Shape m s Z U (more db') n'.links ∧ ((n.links.length ≤ m ∧ n' = n ∧ db' = db) ∨
      (m < n.links.length ∧ n.links.length ≤ n'.links.length ∧ n'.links.length ≤ n.links.length + (if rep ≠ 0 then 4 - rep else 0) ∧ (more db' → n'.links.length = n.links.length + (if rep ≠ 0 then 4 - rep else 0)))) := by
  unfold appendFillLastChild at h
  rw [hm] at h
  split at h
  · next hle =>
    rw [hn.num] at hle
    cases h
    refine ⟨hn, hm, ?_, .inl ⟨hle, rfl, rfl⟩⟩
    intro i x hx
    have hi : i < n.links.length := by by_contra hn; rw [List.getElem?_eq_none (by omega)] at hx; cases hx
    exact ⟨(hs i x hx).1, fun h => by omega, fun h => by omega⟩
  · next hgt =>
    rw [hn.num] at hgt
    have hgt : m < n.links.length := by omega
    simp only at h
    split at h
    · cases h
    · next lastChild hg =>
      obtain ⟨l, hl, hc⟩ := getChild_num hg
      rw [hn.num] at hl
      obtain ⟨s1, s2, s3⟩ := hs _ l hl
      obtain ⟨D, d1, d2, d3⟩ := hU hgt _ (s2 (by omega))
      obtain ⟨c1, c2⟩ := hc d1.1
      split at h
      · cases h
      · next hr =>
        obtain ⟨r1, r2, r3, r4, r5⟩ := hrec D _ _ _ _ _ _ hr c1 hm (by rw [c2]; exact d1.2.1) (by rw [c2]; exact d1.2.2) d2
        split at h
        · cases h
        · next hrm =>
          obtain ⟨m1, m2, m3⟩ := removeChild_num hrm hn
          split at h
          · cases h
          · next hcm =>
            obtain ⟨k1, k2, _⟩ := commit_num hcm r1
            split at h
            · cases h
            · next fsn4 db4 ha =>
              obtain ⟨a1, a2, a3, a4⟩ := addChild_num ha m1
              have hlen : (n.links.take (n.links.length - 1)).length = n.links.length - 1 := by rw [List.length_take]; omega
              have hl2 := congrArg List.length a2
              rw [m2] at hl2
              simp only [List.length_append, List.length_cons, List.length_nil, hlen] at hl2
              have hsh : Shape m s Z U (more db4) fsn4.links := by
                rw [a2, m2]
                refine Shape.snoc hs.dropLast (by rw [hlen]; omega) (fun _ => ?_) (fun _ hmo => ?_)
                · rw [hlen]
                  refine d3 _ ⟨k1, ?_, ?_⟩
                  · show (Node.links _).length ≤ _
                    rw [show (makeLink [] _).target.links = _ from k2]; exact r3
                  · rw [show (makeLink [] _).target.links = _ from k2]; exact r4
                · rw [hlen]
                  have := r5 (a3.mp hmo)
                  refine le_trans (lo_mono ?_) (le_trans this ?_)
                  · have := hp hgt; omega
                  · rw [← k2]; exact cnt_max _
              split at h
              · next hrep =>
                obtain ⟨q1, q2, q3, q4, q5, q6⟩ := repeatLoop_loose (s := s) (Z := Z) (U := U) (subTrickle_loose m depth) _ _ _ _ _ h a1 (by rw [a4, r2]) hsh (fun _ => by omega)
                  (fun i x h1 h2 hx => (hnew hgt hrep i (by omega) (by simp only [depthRepeat] at h2; omega)).2 x hx)
                  (fun i h1 h2 => (hnew hgt hrep i (by omega) (by simp only [depthRepeat] at h2; omega)).1)
                simp only [depthRepeat] at q5 q6
                refine ⟨q1, q2, q3, .inr ⟨hgt, by omega, ?_, fun hmo => ?_⟩⟩
                · rw [if_pos hrep]; omega
                · rw [if_pos hrep]; have := q6 hmo; omega
              · next hrep =>
                cases h
                refine ⟨a1, by rw [a4, r2], hsh, .inr ⟨hgt, by omega, ?_, fun hmo => ?_⟩⟩
                · rw [if_neg hrep]; omega
                · rw [if_neg hrep]; omega

theorem depthInfo_num {n : FSN} (hn : Num n) (m : Nat) : depthInfo n m = if n.links.length < m then (0, 0) else ((n.links.length - m) / 4 + 1, (n.links.length - m) % 4) := by
  unfold depthInfo; rw [hn.num]; rfl

theorem appendRec_loose (m : Nat) : ∀ (fuel : Nat), RecLoose m (appendRec fuel)
  | 0 => by intro D n db d n' sz db' h; cases h
  | fuel + 1 => by
    intro D n db d n' sz db' h hn hm hl hs hd
    unfold appendRec at h
    split at h
    · next h0 =>
      subst h0
      cases h
      exact ⟨hn, hm, hl, hs, fun _ => le_max_left _ _⟩
    split at h
    · next he =>
      cases h
      have := done_more' he
      exact ⟨hn, by rw [done_max he, hm], hl, hs, fun h => by have := this.2.mp h; simp at this⟩
    · next db1 he =>
      have hm1 := done_max he
      rw [hm] at hm1
      simp only at h
      rw [depthInfo_num hn, hm1] at h
      generalize hrp : (if n.links.length < m then (0, 0) else ((n.links.length - m) / 4 + 1, (n.links.length - m) % 4)).2 = rp at h
      have hrep : m ≤ n.links.length → rp = (n.links.length - m) % 4 := by
        intro h; rw [if_neg (by omega)] at hrp; exact hrp.symm
      clear hrp
      split at h
      · cases h
      · next n2 depth db2 hD =>
        -- after the direct blocks
        have key : Num n2 ∧ db2.maxlinks = m ∧ n2.links.length ≤ m + 4 * D ∧ Shape m 1 Leafy (fun _ => Loose m D) False n2.links ∧
            (m < n2.links.length → n2.links.length = n.links.length) ∧ (n2.links.length ≤ m → (more db2 → n2.links.length = m) ∧ depth = 1) ∧
            (m ≤ n2.links.length → depth = (n2.links.length - m) / 4 + 1) := by
          unfold appendDirect at hD
          rw [depthInfo_num hn, hm1] at hD
          by_cases hlt : n.links.length < m
          · rw [if_pos hlt] at hD
            simp only [if_true] at hD
            split at hD
            · cases hD
            · next hf =>
              cases hD
              obtain ⟨f1, _, f3, f4, f5, f6⟩ := fresh_shape (c := False) hf hn hm1 (by omega) hs (fun _ h => h)
              refine ⟨f1, f3, by omega, f4, by omega, fun _ => ⟨f6, rfl⟩, fun h => by rw [Nat.sub_eq_zero_of_le f5]⟩
          · rw [if_neg hlt] at hD
            simp only [Nat.add_one_ne_zero, if_false] at hD
            cases hD
            refine ⟨hn, hm1, hl, hs, fun _ => rfl, fun h => ⟨fun _ => by omega, ?_⟩, fun _ => rfl⟩
            rw [show n.links.length - m = 0 by omega]
        obtain ⟨k1, k2, k3, k4, k5, k6, k7⟩ := key
        split at h
        · next hdm =>
          cases h
          refine ⟨k1, k2, k3, k4, fun hmo => ?_⟩
          by_cases hle : n'.links.length ≤ m
          · have h1 := (k6 hle).2
            rw [lo_small (by omega)]; exact le_max_left _ _
          · have h7 := k7 (by omega)
            refine le_trans (lo_mono ?_) (k4.many (le_refl _) (k := depth - 1) (by omega))
            omega
        split at h
        · cases h
        · next n3 db3 hA =>
          obtain ⟨a1, a2, a3, a4⟩ := appendFill_loose (appendRec_loose m fuel) hA k1 k2 k4 (fun hgt x hx => by
              have h7 := k7 (by omega)
              refine ⟨D - 1, by rw [show D - 1 + 1 = D by omega]; exact hx, by omega, fun y hy => ?_⟩
              rw [show D - 1 + 1 = D by omega] at hy; exact hy) (fun hgt => by
              have h7 := k7 (by omega)
              rw [kd_of (by omega)]; omega) (fun hgt hne i h1 h2 => by
              have h7 := k7 (by omega)
              have h5 := k5 hgt
              have h8 := hrep (by omega)
              refine ⟨by rw [kd_of (by omega)]; omega, fun x hx => hx.mono ?_⟩
              omega)
          have hdn := done_more' (b := db3.done.1) (db := db3) rfl
          have hmx : db3.done.2.maxlinks = db3.maxlinks := done_max (b := db3.done.1) rfl
          -- the number of children
          have hcount : n3.links.length ≤ m + 4 * D ∧ (more db3 → m + 4 * (depth - 1) ≤ n3.links.length ∧ n3.links.length ≤ m + 4 * depth) := by
            rcases a4 with ⟨b1, b2, b3⟩ | ⟨b1, b2, b3, b4⟩
            · subst b2; subst b3
              obtain ⟨h1, h2⟩ := k6 b1
              exact ⟨k3, fun hmo => by have := h1 hmo; omega⟩
            · have h5 := k5 b1
              have h7 := k7 (by omega)
              have h8 := hrep (by omega)
              split at b3
              · next hne =>
                rw [if_pos hne] at b4
                exact ⟨by omega, fun hmo => by have := b4 hmo; omega⟩
              · next hne =>
                rw [if_neg hne] at b4
                exact ⟨by omega, fun hmo => by have := b4 hmo; omega⟩
          split at h
          · cases h
          · next hb =>
            cases h
            obtain ⟨g1, g2, g3, g4, g5⟩ := boundedGrow_loose (D := D) _ _ _ _ _ _ hb a1 (by rw [hmx, a2])
              (a3.mono (le_refl _) (fun _ _ _ _ h => h) (fun h => hdn.1.mpr (hdn.2.mp h))) (fun hmo => by
                have hb := hdn.2.mp hmo
                have := hcount.2 (hdn.1.mpr hb)
                rw [hb]
                simp only [Bool.false_eq_true, if_false]
                omega) hcount.1 (fun h1 => by
                split at h1 <;> simp_all <;> omega)
            refine ⟨g1, g2, g4, g3, fun hmo => ?_⟩
            obtain ⟨h1, h2⟩ := g5 hmo
            have hb := hdn.2.mp h1
            have h3 := hcount.2 (hdn.1.mpr hb)
            rw [hb] at h2
            simp only [Bool.false_eq_true, if_false] at h2
            refine le_trans (lo_mono ?_) (g3.many (le_refl _) (k := d.toNat - 2) (by push_cast at h2; omega))
            omega

/-- The root of a file that has grown. -/
structure Root (m : Nat) (Z : Node → Prop) (n : Node) : Prop where
  counted : Counted n
  shape : RootLoose m Z False n.links

theorem appendRest_loose {Z : Node → Prop} {m fuel h depth rep : Nat} {n : FSN} {db db' : DB} {r : Node} (hr : appendRest fuel h n depth rep db = .ok (r, db')) (hn : Num n) (hm : db.maxlinks = m) (hs : RootLoose m Z False n.links)
    (hle : n.links.length ≤ m → (more db → n.links.length = m) ∧ depth = 1) (hgt : m < n.links.length → depth = (n.links.length - m) / 4 + 1 ∧ rep = (n.links.length - m) % 4) : Root m Z r := by
  unfold appendRest at hr
  split at hr
  · cases hr
  · next n3 db3 hA =>
    obtain ⟨a1, a2, a3, a4⟩ := appendFill_loose (appendRec_loose m h) hA hn hm hs (fun hg x hx => by
        obtain ⟨h1, h2⟩ := hgt hg
        have := kd_of (m := m) (i := n.links.length - 1) (by omega)
        refine ⟨_, hx, by omega, fun y hy => hy⟩) (fun hg => by
        obtain ⟨h1, h2⟩ := hgt hg
        rw [kd_of (by omega)]; omega) (fun hg hrep i h1 h2 => by
        obtain ⟨e1, e2⟩ := hgt hg
        have := kd_of (m := m) (i := i) (by omega)
        exact ⟨by omega, fun x hx => hx.mono (by omega)⟩)
    have hdn := done_more' (b := db3.done.1) (db := db3) rfl
    have hmx : db3.done.2.maxlinks = db3.maxlinks := done_max (b := db3.done.1) rfl
    have hcount : more db3 → m + 4 * (depth - 1) ≤ n3.links.length ∧ n3.links.length ≤ m + 4 * depth := by
      intro hmo
      rcases a4 with ⟨b1, b2, b3⟩ | ⟨b1, b2, b3, b4⟩
      · subst b2; subst b3
        obtain ⟨h1, h2⟩ := hle b1
        have := h1 hmo; omega
      · obtain ⟨h1, h2⟩ := hgt b1
        have b4 := b4 hmo
        split at b4 <;> omega
    simp only at hr
    split at hr
    · cases hr
    · next hg =>
      obtain ⟨g1, g2, g3⟩ := growLoop_loose _ _ _ _ _ _ hg a1 (by rw [hmx, a2])
        (a3.mono (le_refl _) (fun _ _ _ _ h => h) (fun h => hdn.1.mpr (hdn.2.mp h))) (fun hmo => by
          have hb := hdn.2.mp hmo
          have := hcount (hdn.1.mpr hb)
          rw [hb]
          simp only [Bool.false_eq_true, if_false]
          omega) (fun i j x h1 h2 h3 hx => hx.mono (by omega))
      split at hr
      · cases hr
      · next hc =>
        cases hr
        obtain ⟨c1, c2, _⟩ := commit_num hc g1
        exact ⟨c1, by rw [c2]; exact g3⟩

/-- `Append`. -/
theorem append_loose {Z : Node → Prop} {m fuel h : Nat} {base r : Node} {db db' : DB} (hr : append fuel h base db = .ok (r, db')) (hb : Root m Z base) (hm : db.maxlinks = m) (hZ : ∀ n, n.links = [] → Z n) : Root m Z r := by
  unfold append at hr
  split at hr
  · split at hr
    · cases hr
    · next fsn hf =>
      obtain ⟨hn, hls⟩ := fromDag_num hf hb.counted
      have hs := hb.shape
      simp only [Node.links] at hs
      rw [← hls] at hs
      simp only at hr
      rw [depthInfo_num hn, hm] at hr
      by_cases hlt : fsn.links.length < m
      · rw [if_pos hlt] at hr
        simp only [if_true] at hr
        split at hr
        · cases hr
        · next hL =>
          obtain ⟨f1, f2, f3, f4, f5, f6⟩ := fresh_shape (c := False) hL hn hm (by omega) hs hZ
          split at hr
          · cases hr; exact ⟨f2, f4⟩
          · next he =>
            exact appendRest_loose hr f1 (by rw [done_max he, f3]) f4 (fun _ => ⟨fun _ => f6 ((done_more' he).1.mpr rfl), rfl⟩) (by omega)
      · rw [if_neg hlt] at hr
        simp only [Nat.add_one_ne_zero, if_false] at hr
        refine appendRest_loose hr hn hm hs (fun _ => ⟨fun _ => by omega, ?_⟩) (fun _ => ⟨rfl, rfl⟩)
        rw [show fsn.links.length - m = 0 by omega]
  · cases hr

/-- `Layout`. -/
theorem layout_loose {fuel : Nat} {db db' : DB} {r : Node} (h : layout fuel db = .ok (r, db')) : Root db.maxlinks Leafy r := by
  unfold layout at h
  split at h
  · cases h
  · next hf =>
    obtain ⟨f1, _, f3, f4, f5, f6⟩ := fresh_shape (s := 2) (Z := Leafy) (U := fun i => Loose db.maxlinks (kd db.maxlinks i + 1)) (c := True) hf (Num.new _ _) rfl (by simp [FSN.new]) Shape.nil (fun _ h => h)
    split at h
    · cases h
    · next hg =>
      obtain ⟨g1, g2, g3⟩ := growLoop_loose _ _ _ _ _ _ hg f1 f3 (f4.mono (le_refl _) (fun _ _ _ _ h => h) (fun _ => trivial)) (fun hmo => by have := f6 hmo; omega)
        (fun i j x h1 h2 h3 hx => hx.mono (by omega))
      split at h
      · cases h
      · next hc =>
        split at h
        · cases h
        · cases h
          unfold finish at hc
          split at hc
          · cases hc
          · next hc' =>
            cases hc
            obtain ⟨c1, c2, _⟩ := commit_num hc' g1
            exact ⟨c1, by rw [c2]; exact g3⟩

end Unixfs.Import.Trickle
