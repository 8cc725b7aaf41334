import Verif.Spec.Crash
import Verif.Import.Trickle
import Verif.Import.Balanced

/-! # The order in which importers store nodes (C73)

The definitions in this file belong to proofs; they model no code.
-/

namespace Unixfs
open Unixfs.Spec

theorem Spec.Reach.trans {a b c : Node} (h : Reach a b) (h' : Reach b c) : Reach a c := by
  induction h with
  | refl => exact h'
  | step hl _ ih => exact .step hl (ih h')

theorem below_complete (n : Node) : Complete (Below n) := by
  rintro x y ⟨l, hl, h⟩ h'
  exact ⟨l, hl, h.trans h'⟩

theorem reach_complete (n : Node) : Complete (Reach n) := fun _ _ h h' => h.trans h'

/-- Every node comes after the targets of its links. -/
def ChildrenFirst (S : Node → Prop) (st : List Node) : Prop :=
  ∀ pre x post, st = pre ++ x :: post → ∀ l ∈ x.links, l.target ∈ pre ∨ S l.target

variable {S : Node → Prop}

theorem ChildrenFirst.nil : ChildrenFirst S [] := by
  intro pre x post h; simp at h

theorem ChildrenFirst.snoc {st : List Node} {n : Node} (h : ChildrenFirst S st) (hn : ∀ l ∈ n.links, l.target ∈ st ∨ S l.target) :
    ChildrenFirst S (st ++ [n]) := by
  intro pre x post he
  rcases List.eq_nil_or_concat post with rfl | ⟨post', y, rfl⟩
  · obtain ⟨rfl, h2⟩ := List.append_inj' he rfl
    cases h2
    exact hn
  · rw [List.concat_eq_append, ← List.cons_append, ← List.append_assoc] at he
    obtain ⟨h1, _⟩ := List.append_inj' he rfl
    exact h pre x post' h1

/-- The links of a node that is there lead to nodes that are there. -/
theorem ChildrenFirst.has {st : List Node} {n : Node} (h : ChildrenFirst S st) (hS : Complete S) (hn : n ∈ st ∨ S n) :
    ∀ l ∈ n.links, l.target ∈ st ∨ S l.target := by
  intro l hl
  rcases hn with hn | hn
  · obtain ⟨pre, post, rfl⟩ := List.append_of_mem hn
    exact (h pre n post rfl l hl).imp (fun h => by simp [h]) id
  · exact .inr (hS _ _ hn (.step hl (.refl _)))

theorem ChildrenFirst.take {st : List Node} (h : ChildrenFirst S st) (k : Nat) : ChildrenFirst S (st.take k) := by
  intro pre x post he
  refine h pre x (post ++ st.drop k) ?_
  rw [← List.cons_append, ← List.append_assoc, ← he, List.take_append_drop]

theorem ChildrenFirst.crashSafe {st : List Node} (h : ChildrenFirst S st) (hS : Complete S) : CrashSafe S st := by
  intro k x hx y hr
  have h' := h.take k
  generalize st.take k = pre at *
  replace hx : x ∈ pre ∨ S x := .inl hx
  induction hr with
  | refl => exact hx
  | step hl _ ih => exact ih (h'.has hS hx _ hl)

namespace Import

/-- The nodes given to the DAG service. -/
def DB.ids (db : DB) : List Node := db.added.map Built.node

/-- What was stored is in order, and the links `ls` lead to nodes that are there. -/
structure Safe (S : Node → Prop) (db : DB) (ls : List Link) : Prop where
  first : ChildrenFirst S db.ids
  links : ∀ l ∈ ls, l.target ∈ db.ids ∨ S l.target

/-- From `(db, ls)` to `(db', ls')`. -/
structure SafeStep (S : Node → Prop) (db db' : DB) (ls' : List Link) : Prop where
  grew : db.ids <+: db'.ids
  safe : Safe S db' ls'

theorem Safe.mono {db db' : DB} {ls : List Link} (h : Safe S db ls) (hg : db.ids <+: db'.ids) (h' : ChildrenFirst S db'.ids) : Safe S db' ls :=
  ⟨h', fun l hl => (h.links l hl).imp (fun x => hg.subset x) id⟩

theorem Safe.weaken {db : DB} {ls : List Link} (h : Safe S db ls) : Safe S db [] := ⟨h.first, by simp⟩

theorem Safe.ids {db db' : DB} {ls : List Link} (h : Safe S db ls) (he : db'.ids = db.ids) : Safe S db' ls := by
  constructor
  · rw [he]; exact h.first
  · rw [he]; exact h.links

theorem SafeStep.refl {db : DB} {ls : List Link} (h : Safe S db ls) : SafeStep S db db ls := ⟨List.prefix_rfl, h⟩

theorem SafeStep.trans {a b c : DB} {ls ls' : List Link} (h : SafeStep S a b ls) (h' : SafeStep S b c ls') : SafeStep S a c ls' :=
  ⟨h.grew.trans h'.grew, h'.safe⟩

theorem done_ids {db db' : DB} {b : Bool} (h : db.done = (b, db')) : db'.ids = db.ids := by
  unfold DB.done DB.prepareNext at h
  simp only at h
  repeat' split at h
  all_goals (cases h; rfl)

theorem next_ids {db db' : DB} {d : Option Bytes} (h : db.next = .ok (d, db')) : db'.ids = db.ids := by
  unfold DB.next DB.prepareNext at h
  simp only at h
  repeat' split at h
  all_goals first | (cases h; done) | (cases h; rfl)

theorem add_safe {db db' : DB} {b : Built} (h : db.add b = .ok db') (hs : Safe S db b.node.links) :
    SafeStep S db db' [makeLink [] b.node] ∧ b.node ∈ db'.ids := by
  have : db'.ids = db.ids ++ [b.node] := by
    unfold DB.add at h
    split at h <;> first | (cases h; done) | (cases h; simp [DB.ids])
  refine ⟨⟨by rw [this]; exact List.prefix_append _ _, ?_, ?_⟩, by rw [this]; simp⟩
  · rw [this]; exact hs.first.snoc hs.links
  · intro l hl
    rw [List.mem_singleton] at hl
    subst hl
    rw [this]; exact .inl (by simp [makeLink, Link.target])

theorem addChild_safe {n n' : FSN} {b : Built} {sz : UInt64} {db db' : DB} (h : n.addChild b sz db = .ok (n', db'))
    (h1 : Safe S db n.links) (h2 : Safe S db b.node.links) : SafeStep S db db' n'.links := by
  unfold FSN.addChild at h
  simp only at h
  split at h
  · cases h
  · next db1 hd =>
    cases h
    obtain ⟨⟨g, s⟩, _⟩ := add_safe hd h2
    refine ⟨g, s.first, ?_⟩
    intro l hl
    simp only [List.mem_append] at hl
    rcases hl with hl | hl
    · exact (h1.mono g s.first).links l hl
    · exact s.links l hl

theorem commit_links {n n' : FSN} {k : Node} (h : n.commit = .ok (k, n')) : k.links = n.links ∧ n'.links = n.links := by
  unfold FSN.commit at h
  split at h <;> cases h
  exact ⟨rfl, rfl⟩

theorem newLeafNode_links {db : DB} {d : Option Bytes} {t : UInt32} {n : Node} (h : db.newLeafNode d t = .ok n) : n.links = [] := by
  unfold DB.newLeafNode at h
  split at h
  · cases h
  split at h
  · cases h; unfold DB.rawNode; split <;> rfl
  split at h
  · cases h
  · next hc => cases h; rw [(commit_links hc).1]; rfl

theorem newLeafDataNode_safe {db db' : DB} {t : UInt32} {b : Built} {sz : UInt64} (h : db.newLeafDataNode t = .ok ((b, sz), db'))
    (hs : Safe S db []) : SafeStep S db db' b.node.links := by
  unfold DB.newLeafDataNode at h
  split at h
  · cases h
  · next d db1 hn =>
    simp only at h
    split at h
    · cases h
    · next n hl =>
      have hi := next_ids hn
      have : ∀ x : Built × DB, db1.processFileStore n (UInt64.ofNat (d.getD []).length) = x → x.1.node = n ∧ x.2.ids = db.ids := by
        intro x hx
        unfold DB.processFileStore at hx
        split at hx <;> subst hx
        · exact ⟨rfl, hi⟩
        · exact ⟨rfl, hi⟩
      obtain ⟨e1, e2⟩ := this _ rfl
      cases h
      rw [e1, newLeafNode_links hl]
      exact ⟨by rw [e2]; exact List.prefix_rfl, hs.ids e2⟩

/-- A function that builds a child. -/
def ChildSafe (S : Node → Prop) (child : DB → Except Err ((Built × UInt64) × DB)) : Prop :=
  ∀ db b sz db', child db = .ok ((b, sz), db') → Safe S db [] → SafeStep S db db' b.node.links

theorem fillLayerLoop_safe : ∀ (k : Nat) (n : FSN) (db : DB) (n' : FSN) (db' : DB), DB.fillLayerLoop k n db = .ok (n', db') →
    Safe S db n.links → SafeStep S db db' n'.links
  | 0, n, db, n', db', h, hs => by cases h; exact .refl hs
  | k + 1, n, db, n', db', h, hs => by
    unfold DB.fillLayerLoop at h
    split at h
    · next hd =>
      cases h
      exact ⟨by rw [done_ids hd]; exact List.prefix_rfl, hs.ids (done_ids hd)⟩
    · next db1 hd =>
      have s1 : SafeStep S db db1 n.links := ⟨by rw [done_ids hd]; exact List.prefix_rfl, hs.ids (done_ids hd)⟩
      split at h
      · cases h
      · next hl =>
        have s2 := newLeafDataNode_safe hl s1.safe.weaken
        split at h
        · cases h
        · next ha =>
          have s3 := addChild_safe ha (s1.safe.mono s2.grew s2.safe.first) s2.safe
          exact s1.trans (s2.trans (s3.trans (fillLayerLoop_safe k _ _ _ _ h s3.safe)))

theorem fillNodeLayer_safe {n n' : FSN} {db db' : DB} (h : DB.fillNodeLayer n db = .ok (n', db')) (hs : Safe S db n.links) :
    SafeStep S db db' n'.links := by
  unfold DB.fillNodeLayer at h
  split at h
  · cases h
  · next hl =>
    split at h
    · cases h
    · next hc =>
      cases h
      rw [(commit_links hc).2]
      exact fillLayerLoop_safe _ _ _ _ _ hl hs

namespace Balanced

theorem fillLoop_safe {child} (hc : ChildSafe S child) : ∀ (k : Nat) (n : FSN) (db : DB) (n' : FSN) (db' : DB), fillLoop child k n db = .ok (n', db') →
    Safe S db n.links → SafeStep S db db' n'.links
  | 0, n, db, n', db', h, hs => by cases h; exact .refl hs
  | k + 1, n, db, n', db', h, hs => by
    unfold fillLoop at h
    split at h
    · next hd =>
      cases h
      exact ⟨by rw [done_ids hd]; exact List.prefix_rfl, hs.ids (done_ids hd)⟩
    · next db1 hd =>
      have s1 : SafeStep S db db1 n.links := ⟨by rw [done_ids hd]; exact List.prefix_rfl, hs.ids (done_ids hd)⟩
      split at h
      · cases h
      · next hl =>
        have s2 := hc _ _ _ _ hl s1.safe.weaken
        split at h
        · cases h
        · next ha =>
          have s3 := addChild_safe ha (s1.safe.mono s2.grew s2.safe.first) s2.safe
          exact s1.trans (s2.trans (s3.trans (fillLoop_safe hc k _ _ _ _ h s3.safe)))

theorem fillWith_safe {child} (hc : ChildSafe S child) {n : Option FSN} {db db' : DB} {b : Built} {sz : UInt64}
    (h : fillWith child n db = .ok ((b, sz), db')) (hs : Safe S db (n.elim [] FSN.links)) : SafeStep S db db' b.node.links := by
  unfold fillWith at h
  simp only at h
  split at h
  · cases h
  · next hl =>
    split at h
    · cases h
    · next hk =>
      cases h
      rw [(commit_links hk).1]
      refine fillLoop_safe hc _ _ _ _ _ hl ?_
      cases n with
      | none => exact hs
      | some n => exact hs

theorem fillNodeRec_safe : ∀ (d : Nat) (n : Option FSN) (db db' : DB) (b : Built) (sz : UInt64), fillNodeRec d n db = .ok ((b, sz), db') →
    Safe S db (n.elim [] FSN.links) → SafeStep S db db' b.node.links
  | 0, n, db, db', b, sz, h, hs => fillWith_safe (fun _ _ _ _ h hs => newLeafDataNode_safe h hs) h hs
  | d + 1, n, db, db', b, sz, h, hs => fillWith_safe (fun _ _ _ _ h hs => fillNodeRec_safe d none _ _ _ _ h hs) h hs

theorem layoutLoop_safe : ∀ (fuel d : Nat) (r : Built) (sz : UInt64) (db : DB) (r' : Built) (db' : DB), layoutLoop fuel d r sz db = .ok (r', db') →
    Safe S db r.node.links → SafeStep S db db' r'.node.links
  | 0, d, r, sz, db, r', db', h, hs => by
    unfold layoutLoop at h
    split at h
    · next hd => cases h; exact ⟨by rw [done_ids hd]; exact List.prefix_rfl, hs.ids (done_ids hd)⟩
    · cases h
  | fuel + 1, d, r, sz, db, r', db', h, hs => by
    unfold layoutLoop at h
    split at h
    · next hd => cases h; exact ⟨by rw [done_ids hd]; exact List.prefix_rfl, hs.ids (done_ids hd)⟩
    · next db1 hd =>
      have s1 : SafeStep S db db1 r.node.links := ⟨by rw [done_ids hd]; exact List.prefix_rfl, hs.ids (done_ids hd)⟩
      split at h
      · cases h
      · next ha =>
        have s2 := addChild_safe ha (by simpa [FSN.new] using s1.safe.weaken) s1.safe
        split at h
        · cases h
        · next hf =>
          have s3 := fillNodeRec_safe _ _ _ _ _ _ hf (by simpa using s2.safe)
          exact s1.trans (s2.trans (s3.trans (layoutLoop_safe fuel _ _ _ _ _ _ h s3.safe)))

theorem layout_safe {fuel : Nat} {db db' : DB} {r : Built} (h : layout fuel db = .ok (r, db')) (hs : Safe S db []) : ChildrenFirst S db'.ids := by
  unfold layout at h
  split at h
  · next hd =>
    split at h
    · cases h
    · next hl =>
      split at h
      · cases h
      · next ha =>
        cases h
        exact (add_safe ha (by rw [newLeafNode_links hl]; exact hs.ids (done_ids hd))).1.safe.first
  · next hd =>
    split at h
    · cases h
    · next hl =>
      have s1 := newLeafDataNode_safe hl (hs.ids (done_ids hd))
      split at h
      · cases h
      · next hL =>
        have s2 := layoutLoop_safe _ _ _ _ _ _ _ hL s1.safe
        split at h
        · cases h
        · next ha => cases h; exact (add_safe ha s2.safe).1.safe.first

end Balanced

namespace Trickle

/-- A function that builds a sub-graph. -/
def SubSafe (S : Node → Prop) (sub : DB → Except Err ((Node × UInt64) × DB)) : Prop :=
  ∀ db n sz db', sub db = .ok ((n, sz), db') → Safe S db [] → SafeStep S db db' n.links

theorem repeatLoop_safe {sub} (hc : SubSafe S sub) : ∀ (k : Nat) (n : FSN) (db : DB) (n' : FSN) (db' : DB), repeatLoop sub k n db = .ok (n', db') →
    Safe S db n.links → SafeStep S db db' n'.links
  | 0, n, db, n', db', h, hs => by cases h; exact .refl hs
  | k + 1, n, db, n', db', h, hs => by
    unfold repeatLoop at h
    split at h
    · next hd =>
      cases h
      exact ⟨by rw [done_ids hd]; exact List.prefix_rfl, hs.ids (done_ids hd)⟩
    · next db1 hd =>
      have s1 : SafeStep S db db1 n.links := ⟨by rw [done_ids hd]; exact List.prefix_rfl, hs.ids (done_ids hd)⟩
      split at h
      · cases h
      · next hl =>
        have s2 := hc _ _ _ _ hl s1.safe.weaken
        split at h
        · cases h
        · next ha =>
          have s3 := addChild_safe ha (s1.safe.mono s2.grew s2.safe.first) s2.safe
          exact s1.trans (s2.trans (s3.trans (repeatLoop_safe hc k _ _ _ _ h s3.safe)))

theorem finish_safe {n : FSN} {db db' : DB} {k : Node} {sz : UInt64} (h : finish n db = .ok ((k, sz), db')) (hs : Safe S db n.links) :
    SafeStep S db db' k.links := by
  unfold finish at h
  split at h
  · cases h
  · next hc => cases h; rw [(commit_links hc).1]; exact .refl hs

theorem layers_safe : ∀ (d : Nat) (n : FSN) (db : DB) (n' : FSN) (db' : DB), layers d n db = .ok (n', db') →
    Safe S db n.links → SafeStep S db db' n'.links
  | 0, n, db, n', db', h, hs => by unfold layers at h; cases h; exact .refl hs
  | d + 1, n, db, n', db', h, hs => by
    unfold layers at h
    split at h
    · cases h
    · next hl =>
      have s1 := layers_safe d _ _ _ _ hl hs
      split at h
      · cases h; exact s1
      split at h
      · next hd => cases h; exact s1.trans ⟨by rw [done_ids hd]; exact List.prefix_rfl, s1.safe.ids (done_ids hd)⟩
      · next hd =>
        refine s1.trans (SafeStep.trans (b := _) (ls := _) ⟨by rw [done_ids hd]; exact List.prefix_rfl, s1.safe.ids (done_ids hd)⟩ ?_)
        refine repeatLoop_safe ?_ _ _ _ _ _ h (s1.safe.ids (done_ids hd))
        intro db n sz db' h hs
        dsimp only at h
        split at h
        · cases h
        · next hf =>
          have s2 := fillNodeLayer_safe hf (by simpa [FSN.new] using hs)
          split at h
          · cases h
          · next hl2 =>
            have s3 := layers_safe d _ _ _ _ hl2 s2.safe
            exact s2.trans (s3.trans (finish_safe h s3.safe))

theorem fillTrickle_safe {m : Nat} {n : FSN} {db db' : DB} {k : Node} {sz : UInt64} (h : fillTrickle m n db = .ok ((k, sz), db'))
    (hs : Safe S db n.links) : SafeStep S db db' k.links := by
  unfold fillTrickle at h
  split at h
  · cases h
  · next hf =>
    have s2 := fillNodeLayer_safe hf hs
    split at h
    · cases h
    · next hl2 =>
      have s3 := layers_safe _ _ _ _ _ hl2 s2.safe
      exact s2.trans (s3.trans (finish_safe h s3.safe))

theorem subTrickle_safe (i : Nat) : SubSafe S (subTrickle i) :=
  fun _ _ _ _ h hs => fillTrickle_safe h (by simpa [FSN.new] using hs)

theorem growLoop_safe : ∀ (fuel i : Nat) (n : FSN) (db : DB) (n' : FSN) (db' : DB), growLoop fuel i n db = .ok (n', db') →
    Safe S db n.links → SafeStep S db db' n'.links
  | 0, i, n, db, n', db', h, hs => by
    unfold growLoop at h
    split at h
    · next hd => cases h; exact ⟨by rw [done_ids hd]; exact List.prefix_rfl, hs.ids (done_ids hd)⟩
    · cases h
  | fuel + 1, i, n, db, n', db', h, hs => by
    unfold growLoop at h
    split at h
    · next hd => cases h; exact ⟨by rw [done_ids hd]; exact List.prefix_rfl, hs.ids (done_ids hd)⟩
    · next db1 hd =>
      have s1 : SafeStep S db db1 n.links := ⟨by rw [done_ids hd]; exact List.prefix_rfl, hs.ids (done_ids hd)⟩
      split at h
      · cases h
      · next hr =>
        have s2 := repeatLoop_safe (subTrickle_safe i) _ _ _ _ _ hr s1.safe
        exact s1.trans (s2.trans (growLoop_safe fuel _ _ _ _ _ h s2.safe))

theorem boundedGrow_safe : ∀ (k i : Nat) (n : FSN) (db : DB) (n' : FSN) (db' : DB), boundedGrow k i n db = .ok (n', db') →
    Safe S db n.links → SafeStep S db db' n'.links
  | 0, i, n, db, n', db', h, hs => by cases h; exact .refl hs
  | k + 1, i, n, db, n', db', h, hs => by
    unfold boundedGrow at h
    split at h
    · next hd => cases h; exact ⟨by rw [done_ids hd]; exact List.prefix_rfl, hs.ids (done_ids hd)⟩
    · next db1 hd =>
      have s1 : SafeStep S db db1 n.links := ⟨by rw [done_ids hd]; exact List.prefix_rfl, hs.ids (done_ids hd)⟩
      split at h
      · cases h
      · next hr =>
        have s2 := repeatLoop_safe (subTrickle_safe i) _ _ _ _ _ hr s1.safe
        exact s1.trans (s2.trans (boundedGrow_safe k _ _ _ _ _ h s2.safe))

theorem layout_safe {fuel : Nat} {db db' : DB} {r : Node} (h : layout fuel db = .ok (r, db')) (hs : Safe S db []) : ChildrenFirst S db'.ids := by
  unfold layout at h
  split at h
  · cases h
  · next hf =>
    have s1 := fillNodeLayer_safe hf (by simpa [FSN.new] using hs)
    split at h
    · cases h
    · next hg =>
      have s2 := growLoop_safe _ _ _ _ _ _ hg s1.safe
      split at h
      · cases h
      · next hF =>
        have s3 := finish_safe hF s2.safe
        split at h
        · cases h
        · next ha => cases h; exact (add_safe ha s3.safe).1.safe.first

theorem fromDag_links {d : Bytes} {ls : List Link} {b : Builder} {n : FSN} (h : FSN.fromDag d ls b = .ok n) : n.links = ls := by
  unfold FSN.fromDag at h
  split at h <;> cases h
  rfl

theorem appendFillLastChild_safe (hS : Complete S) {rec} (hrec : ∀ n db d n' sz db', rec n db d = .ok ((n', sz), db') → Safe S db n.links → SafeStep S db db' n'.links)
    {n n' : FSN} {depth rep : Nat} {db db' : DB} (h : appendFillLastChild rec n depth rep db = .ok (n', db')) (hs : Safe S db n.links) :
    SafeStep S db db' n'.links := by
  unfold appendFillLastChild at h
  split at h
  · cases h; exact .refl hs
  simp only at h
  split at h
  · cases h
  · next lastChild hg =>
    have hlc : Safe S db lastChild.links := by
      refine ⟨hs.first, ?_⟩
      unfold FSN.getChild at hg
      split at hg
      · cases hg
      · next l hl =>
        split at hg
        · split at hg
          · next d ls b ht =>
            rw [fromDag_links hg]
            intro x hx
            exact hs.first.has hS (hs.links l (List.mem_of_getElem? hl)) x (by rw [ht]; exact hx)
          · cases hg
        · cases hg
    split at h
    · cases h
    · next hr =>
      have s1 := hrec _ _ _ _ _ _ hr hlc
      split at h
      · cases h
      · next hrm =>
        have hrl : ∀ (f : FSN), n.removeChild (n.numChildren - 1) = .ok f → ∀ l ∈ f.links, l ∈ n.links := by
          intro f hf l hl
          unfold FSN.removeChild at hf
          split at hf
          · cases hf
          · split at hf
            · cases hf
              simp only [List.mem_append] at hl
              exact hl.elim List.mem_of_mem_take List.mem_of_mem_drop
            · cases hf
        split at h
        · cases h
        · next hc =>
          split at h
          · cases h
          · next ha =>
            have hn := hs.mono s1.grew s1.safe.first
            have s2 := addChild_safe ha ⟨hn.first, fun l hl => hn.links l (hrl _ hrm l hl)⟩ (by rw [(commit_links hc).1]; exact s1.safe)
            split at h
            · exact s1.trans (s2.trans (repeatLoop_safe (subTrickle_safe _) _ _ _ _ _ h s2.safe))
            · cases h; exact s1.trans s2

theorem appendRec_safe (hS : Complete S) : ∀ (fuel : Nat) (n : FSN) (db : DB) (d : Int) (n' : FSN) (sz : UInt64) (db' : DB),
    appendRec fuel n db d = .ok ((n', sz), db') → Safe S db n.links → SafeStep S db db' n'.links
  | 0, n, db, d, n', sz, db', h, hs => by cases h
  | fuel + 1, n, db, d, n', sz, db', h, hs => by
    unfold appendRec at h
    split at h
    · cases h; exact .refl hs
    split at h
    · next hd => cases h; exact ⟨by rw [done_ids hd]; exact List.prefix_rfl, hs.ids (done_ids hd)⟩
    · next db1 hd =>
      have s1 : SafeStep S db db1 n.links := ⟨by rw [done_ids hd]; exact List.prefix_rfl, hs.ids (done_ids hd)⟩
      simp only at h
      split at h
      · cases h
      · next n2 depth db2 hD =>
        have s2 : SafeStep S db1 db2 n2.links := by
          unfold appendDirect at hD
          split at hD
          · split at hD
            · cases hD
            · next hf => cases hD; exact fillNodeLayer_safe hf s1.safe
          · cases hD; exact .refl s1.safe
        split at h
        · cases h; exact s1.trans s2
        split at h
        · cases h
        · next n3 db3 hA =>
          have s3 := appendFillLastChild_safe hS (fun _ _ _ _ _ _ h hs => appendRec_safe hS fuel _ _ _ _ _ _ h hs) hA s2.safe
          have hd3 : (db3.done).2.ids = db3.ids := done_ids (db := db3) (b := db3.done.1) rfl
          split at h
          · cases h
          · next hb =>
            cases h
            exact s1.trans (s2.trans (s3.trans (SafeStep.trans (ls := _) ⟨by rw [hd3]; exact List.prefix_rfl, s3.safe.ids hd3⟩ (boundedGrow_safe _ _ _ _ _ _ hb (s3.safe.ids hd3)))))

theorem appendRest_safe (hS : Complete S) {fuel h depth rep : Nat} {n : FSN} {db db' : DB} {r : Node} (hr : appendRest fuel h n depth rep db = .ok (r, db'))
    (hs : Safe S db n.links) : SafeStep S db db' r.links := by
  unfold appendRest at hr
  split at hr
  · cases hr
  · next n3 db3 hA =>
    have s3 := appendFillLastChild_safe hS (fun _ _ _ _ _ _ h hs => appendRec_safe hS _ _ _ _ _ _ _ h hs) hA hs
    have hd3 : (db3.done).2.ids = db3.ids := done_ids (db := db3) (b := db3.done.1) rfl
    simp only at hr
    split at hr
    · cases hr
    · next hg =>
      have s4 := growLoop_safe _ _ _ _ _ _ hg (s3.safe.ids hd3)
      split at hr
      · cases hr
      · next hc =>
        cases hr
        rw [(commit_links hc).1]
        exact s3.trans (SafeStep.trans (ls := _) ⟨by rw [hd3]; exact List.prefix_rfl, s3.safe.ids hd3⟩ s4)

theorem append_safe (hS : Complete S) {fuel h : Nat} {base r : Node} {db db' : DB} (hr : append fuel h base db = .ok (r, db'))
    (hs : Safe S db base.links) : SafeStep S db db' r.links := by
  unfold append at hr
  split at hr
  · split at hr
    · cases hr
    · next d ls b fsn hf =>
      have h0 : Safe S db fsn.links := by rw [fromDag_links hf]; exact hs
      simp only at hr
      split at hr
      · split at hr
        · cases hr
        · next hF =>
          have s1 := fillNodeLayer_safe hF h0
          split at hr
          · next hd => cases hr; exact s1.trans ⟨by rw [done_ids hd]; exact List.prefix_rfl, s1.safe.ids (done_ids hd)⟩
          · next hd =>
            exact s1.trans (SafeStep.trans (ls := _) ⟨by rw [done_ids hd]; exact List.prefix_rfl, s1.safe.ids (done_ids hd)⟩ (appendRest_safe hS hr (s1.safe.ids (done_ids hd))))
      · exact appendRest_safe hS hr h0
  · cases hr

end Trickle
end Import
end Unixfs
