import Verif.Import.FailKin
import Verif.Import.Crash

/-! # The order in which an `Append` that fails has stored nodes (C74)

The definitions in this file belong to proofs; they model no code.
-/

namespace Unixfs.Import
open Unixfs.Spec

variable {S : Node → Prop}

/-- From `db` to the state `db'` after a failure that leaves the links `ls'`: what was stored is in order,
and unless an `Add` was refused the links lead to nodes that are there. -/
structure SafeErr (S : Node → Prop) (db db' : DB) (ls' : List Link) : Prop where
  grew : db.ids <+: db'.ids
  first : ChildrenFirst S db'.ids
  links : db'.addBudget = none → ∀ l ∈ ls', l.target ∈ db'.ids ∨ S l.target

theorem SafeStep.err {a b : DB} {ls : List Link} (h : SafeStep S a b ls) : SafeErr S a b ls := ⟨h.grew, h.safe.first, fun _ => h.safe.links⟩

theorem SafeStep.thenErr {a b c : DB} {ls ls' : List Link} (h : SafeStep S a b ls) (h' : SafeErr S b c ls') : SafeErr S a c ls' :=
  ⟨h.grew.trans h'.grew, h'.first, h'.links⟩

theorem Safe.same {db db' : DB} {ls : List Link} (h : Safe S db ls) (hs : Same db db') : SafeStep S db db' ls :=
  ⟨by rw [hs.ids]; exact List.prefix_rfl, h.ids hs.ids⟩

/-- The links of the node in hand, after the failure of something else. -/
theorem Safe.after {db db' : DB} {ls ls' : List Link} (h : Safe S db ls) (h' : SafeErr S db db' ls') : SafeErr S db db' ls :=
  ⟨h'.grew, h'.first, fun _ => (h.mono h'.grew h'.first).links⟩

theorem addChildF_safe {n n' : FSN} {c : Built} {sz : UInt64} {db db' : DB} {e : Err} (h : n.addChildF c sz db = (.error e, n', db'))
    (hs : Safe S db n.links) : SafeErr S db db' n'.links := by
  obtain ⟨rfl, hb, _, _⟩ := addChildF_error h
  exact ⟨List.prefix_rfl, hs.first, by rw [hb]; simp⟩

theorem fillLayerLoopF_safe : ∀ (k : Nat) (n : FSN) (db : DB) (e : Err) (n' : FSN) (db' : DB), DB.fillLayerLoopF k n db = (.error e, n', db') →
    Safe S db n.links → SafeErr S db db' n'.links
  | 0, n, db, e, n', db', h, hs => by cases h
  | k + 1, n, db, e, n', db', h, hs => by
    unfold DB.fillLayerLoopF at h
    split at h
    · cases h
    · next db1 he =>
      have s1 := hs.same (done_same' he)
      have hsame := newLeafDataNodeF_same db1 TRaw
      split at h
      · next hl => rw [hl] at hsame; cases h; exact s1.thenErr (s1.safe.same hsame).err
      · next hl =>
        have s2 := newLeafDataNode_safe (newLeafDataNode_of hl) s1.safe.weaken
        have h2 := s1.safe.mono s2.grew s2.safe.first
        split at h
        · next ha => cases h; exact s1.thenErr (s2.thenErr (addChildF_safe ha h2))
        · next ha =>
          have s3 := addChild_safe (addChild_of ha) h2 s2.safe
          exact s1.thenErr (s2.thenErr (s3.thenErr (fillLayerLoopF_safe k _ _ _ _ _ h s3.safe)))

theorem fillNodeLayerF_safe {n n' : FSN} {db db' : DB} {e : Err} (h : DB.fillNodeLayerF n db = (.error e, n', db')) (hs : Safe S db n.links) :
    SafeErr S db db' n'.links := by
  unfold DB.fillNodeLayerF at h
  split at h
  · next hl => cases h; exact fillLayerLoopF_safe _ _ _ _ _ _ hl hs
  · next hl =>
    split at h
    · cases h; exact (fillLayerLoop_safe _ _ _ _ _ (fillLayerLoop_of hl) hs).err
    · cases h

namespace Trickle

/-- A function that failed to build a sub-graph. -/
def SubSafeF (S : Node → Prop) (sub : DB → Except Err (Node × UInt64) × DB) : Prop :=
  ∀ db e db', sub db = (.error e, db') → Safe S db [] → SafeErr S db db' []

theorem repeatLoopF_safe {subF sub} (hq : ∀ db, okState (subF db) = sub db) (hc : SubSafe S sub) (hcF : SubSafeF S subF) :
    ∀ (k : Nat) (n : FSN) (db : DB) (e : Err) (n' : FSN) (db' : DB), repeatLoopF subF k n db = (.error e, n', db') →
    Safe S db n.links → SafeErr S db db' n'.links
  | 0, n, db, e, n', db', h, hs => by cases h
  | k + 1, n, db, e, n', db', h, hs => by
    unfold repeatLoopF at h
    split at h
    · cases h
    · next db1 he =>
      have s1 := hs.same (done_same' he)
      split at h
      · next hl => cases h; exact s1.thenErr (s1.safe.after (hcF _ _ _ hl s1.safe.weaken))
      · next hl =>
        have s2 := hc _ _ _ _ (by rw [← hq, hl]; rfl) s1.safe.weaken
        have h2 := s1.safe.mono s2.grew s2.safe.first
        split at h
        · next ha => cases h; exact s1.thenErr (s2.thenErr (addChildF_safe ha h2))
        · next ha =>
          have s3 := addChild_safe (addChild_of ha) h2 s2.safe
          exact s1.thenErr (s2.thenErr (s3.thenErr (repeatLoopF_safe hq hc hcF k _ _ _ _ _ h s3.safe)))

theorem SafeErr.nil {db db' : DB} {ls : List Link} (h : SafeErr S db db' ls) : SafeErr S db db' [] := ⟨h.grew, h.first, by simp⟩

theorem layersF_safe : ∀ (d : Nat) (n : FSN) (db : DB) (e : Err) (n' : FSN) (db' : DB), layersF d n db = (.error e, n', db') →
    Safe S db n.links → SafeErr S db db' n'.links
  | 0, n, db, e, n', db', h, hs => by unfold layersF at h; cases h
  | d + 1, n, db, e, n', db', h, hs => by
    unfold layersF at h
    split at h
    · next hl => cases h; exact layersF_safe d _ _ _ _ _ hl hs
    · next hl =>
      have s1 := layers_safe d _ _ _ _ (layers_of hl) hs
      split at h
      · cases h
      split at h
      · cases h
      · next he =>
        have s2 := s1.safe.same (done_same' he)
        refine s1.thenErr (s2.thenErr (repeatLoopF_safe (sub := fun db => okState _) (fun _ => rfl) ?_ ?_ _ _ _ _ _ _ h s2.safe))
        · intro db n sz db' h hs
          dsimp only at h
          rcases hx : DB.fillNodeLayerF (FSN.new db TFile) db with ⟨e | ⟨⟩, n5, db5⟩
          · rw [hx] at h; cases h
          · rw [hx] at h
            dsimp only at h
            have g1 := fillNodeLayer_safe (fillNodeLayer_of hx) (by simpa [FSN.new] using hs)
            rcases hy : layersF d n5 db5 with ⟨e | ⟨⟩, n6, db6⟩
            · rw [hy] at h; cases h
            · rw [hy] at h
              dsimp only at h
              rw [finishF_eq] at h
              have g2 := layers_safe d _ _ _ _ (layers_of hy) g1.safe
              exact g1.trans (g2.trans (finish_safe h g2.safe))
        · intro db e db' h hs
          dsimp only at h
          split at h
          · next hx => cases h; exact SafeErr.nil (fillNodeLayerF_safe hx (by simpa [FSN.new] using hs))
          · next hx =>
            have g1 := fillNodeLayer_safe (fillNodeLayer_of hx) (by simpa [FSN.new] using hs)
            split at h
            · next hy => cases h; exact SafeErr.nil (g1.thenErr (layersF_safe d _ _ _ _ _ hy g1.safe))
            · next hy =>
              have g2 := layers_safe d _ _ _ _ (layers_of hy) g1.safe
              unfold finishF at h
              split at h <;> cases h
              exact SafeErr.nil (g1.trans g2).err

theorem subTrickleF_safe (i : Nat) : SubSafeF S (subTrickleF i) := by
  intro db e db' h hs
  unfold subTrickleF at h
  split at h
  · next hx => cases h; exact SafeErr.nil (fillNodeLayerF_safe hx (by simpa [FSN.new] using hs))
  · next hx =>
    have g1 := fillNodeLayer_safe (fillNodeLayer_of hx) (by simpa [FSN.new] using hs)
    split at h
    · next hy => cases h; exact SafeErr.nil (g1.thenErr (layersF_safe _ _ _ _ _ _ hy g1.safe))
    · next hy =>
      have g2 := layers_safe _ _ _ _ _ (layers_of hy) g1.safe
      unfold finishF at h
      split at h <;> cases h
      exact SafeErr.nil (g1.trans g2).err

theorem growLoopF_safe : ∀ (fuel i : Nat) (n : FSN) (db : DB) (e : Err) (n' : FSN) (db' : DB), growLoopF fuel i n db = (.error e, n', db') →
    Safe S db n.links → SafeErr S db db' n'.links
  | 0, i, n, db, e, n', db', h, hs => by
    unfold growLoopF at h
    split at h
    · cases h
    · next he => cases h; exact (hs.same (done_same' he)).err
  | fuel + 1, i, n, db, e, n', db', h, hs => by
    unfold growLoopF at h
    split at h
    · cases h
    · next he =>
      have s1 := hs.same (done_same' he)
      split at h
      · next hr => cases h; exact s1.thenErr (repeatLoopF_safe (subTrickleF_eq i) (subTrickle_safe i) (subTrickleF_safe i) _ _ _ _ _ _ hr s1.safe)
      · next hr =>
        have s2 := repeatLoop_safe (subTrickle_safe i) _ _ _ _ _ (repeatLoop_of hr) s1.safe
        exact s1.thenErr (s2.thenErr (growLoopF_safe fuel _ _ _ _ _ _ h s2.safe))

theorem boundedGrowF_safe : ∀ (k i : Nat) (n : FSN) (db : DB) (e : Err) (n' : FSN) (db' : DB), boundedGrowF k i n db = (.error e, n', db') →
    Safe S db n.links → SafeErr S db db' n'.links
  | 0, i, n, db, e, n', db', h, hs => by cases h
  | k + 1, i, n, db, e, n', db', h, hs => by
    unfold boundedGrowF at h
    split at h
    · cases h
    · next he =>
      have s1 := hs.same (done_same' he)
      split at h
      · next hr => cases h; exact s1.thenErr (repeatLoopF_safe (subTrickleF_eq i) (subTrickle_safe i) (subTrickleF_safe i) _ _ _ _ _ _ hr s1.safe)
      · next hr =>
        have s2 := repeatLoop_safe (subTrickle_safe i) _ _ _ _ _ (repeatLoop_of hr) s1.safe
        exact s1.thenErr (s2.thenErr (boundedGrowF_safe k _ _ _ _ _ _ h s2.safe))

theorem getChild_safe (hS : Complete S) {n c : FSN} {i : Nat} {g : Node → Bool} {db : DB} (hg : n.getChild i g = .ok c) (hs : Safe S db n.links) : Safe S db c.links := by
  refine ⟨hs.first, ?_⟩
  unfold FSN.getChild at hg
  split at hg
  · cases hg
  · next l hl =>
    split at hg
    · split at hg
      · next d ls b ht =>
        rw [fromDag_links hg]
        intro x hx
        exact hs.first.has hS (hs.links l (List.mem_of_getElem? hl)) x (by rw [ht]; exact hx)
      · cases hg
    · cases hg

theorem removeChild_mem {n f : FSN} {i : Nat} (hf : n.removeChild i = .ok f) : ∀ l ∈ f.links, l ∈ n.links := by
  intro l hl
  unfold FSN.removeChild at hf
  split at hf
  · cases hf
  · split at hf
    · cases hf
      simp only [List.mem_append] at hl
      exact hl.elim List.mem_of_mem_take List.mem_of_mem_drop
    · cases hf

theorem appendFillLastChildF_safe (hS : Complete S) {recF : FSN → DB → Int → Except Err (FSN × UInt64) × DB} {rec : FSN → DB → Int → Except Err ((FSN × UInt64) × DB)}
    (hq : ∀ n db d, okState (recF n db d) = rec n db d)
    (hrec : ∀ n db d n' sz db', rec n db d = .ok ((n', sz), db') → Safe S db n.links → SafeStep S db db' n'.links)
    (hrecF : ∀ n db d e db', recF n db d = (.error e, db') → Safe S db n.links → SafeErr S db db' [])
    {n n' : FSN} {depth rep : Nat} {db db' : DB} {e : Err} (h : appendFillLastChildF recF n depth rep db = (.error e, n', db')) (hs : Safe S db n.links) :
    SafeErr S db db' n'.links := by
  unfold appendFillLastChildF at h
  split at h
  · cases h
  simp only at h
  split at h
  · cases h; exact (SafeStep.refl hs).err
  · next lastChild hg =>
    have hlc := getChild_safe hS hg hs
    split at h
    · next hr => cases h; exact hs.after (hrecF _ _ _ _ _ hr hlc)
    · next hr =>
      have s1 := hrec _ _ _ _ _ _ (by rw [← hq, hr]; rfl) hlc
      have hn := hs.mono s1.grew s1.safe.first
      split at h
      · cases h; exact ⟨s1.grew, hn.first, fun _ => hn.links⟩
      · next hrm =>
        split at h
        · cases h; exact ⟨s1.grew, hn.first, fun _ l hl => hn.links l (removeChild_mem hrm l hl)⟩
        · next hc =>
          have hm : Safe S _ _ := ⟨hn.first, fun l hl => hn.links l (removeChild_mem hrm l hl)⟩
          split at h
          · next ha => cases h; exact s1.thenErr (addChildF_safe ha hm)
          · next ha =>
            have s2 := addChild_safe (addChild_of ha) hm (by rw [(commit_links hc).1]; exact s1.safe)
            split at h
            · exact s1.thenErr (s2.thenErr (repeatLoopF_safe (subTrickleF_eq _) (subTrickle_safe _) (subTrickleF_safe _) _ _ _ _ _ _ h s2.safe))
            · cases h

theorem appendRecF_safe (hS : Complete S) : ∀ (fuel : Nat) (n : FSN) (db : DB) (d : Int) (e : Err) (db' : DB),
    appendRecF fuel n db d = (.error e, db') → Safe S db n.links → SafeErr S db db' []
  | 0, n, db, d, e, db', h, hs => by cases h; exact (SafeStep.refl hs.weaken).err
  | fuel + 1, n, db, d, e, db', h, hs => by
    unfold appendRecF at h
    split at h
    · cases h
    split at h
    · cases h
    · next db1 he =>
      have s1 := hs.same (done_same' he)
      simp only at h
      split at h
      · next hD =>
        cases h
        unfold appendDirectF at hD
        split at hD
        · split at hD
          · next hf => cases hD; exact SafeErr.nil (s1.thenErr (fillNodeLayerF_safe hf s1.safe))
          · cases hD
        · cases hD
      · next depth n2 db2 hD =>
        have s2 : SafeStep S db1 db2 n2.links := by
          unfold appendDirectF at hD
          split at hD
          · split at hD
            · cases hD
            · next hf => cases hD; exact fillNodeLayer_safe (fillNodeLayer_of hf) s1.safe
          · cases hD; exact .refl s1.safe
        split at h
        · cases h
        split at h
        · next hA =>
          cases h
          exact SafeErr.nil (s1.thenErr (s2.thenErr (appendFillLastChildF_safe hS (appendRecF_eq fuel) (fun _ _ _ _ _ _ h hn => appendRec_safe hS fuel _ _ _ _ _ _ h hn)
            (fun _ _ _ _ _ h hn => appendRecF_safe hS fuel _ _ _ _ _ h hn) hA s2.safe)))
        · next n3 db3 hA =>
          have s3 := appendFillLastChild_safe hS (fun _ _ _ _ _ _ h hn => appendRec_safe hS fuel _ _ _ _ _ _ h hn) (appendFillLastChild_of hA) s2.safe
          have s4 := s3.safe.same (done_same _)
          split at h
          · next hb => cases h; exact SafeErr.nil (s1.thenErr (s2.thenErr (s3.thenErr (s4.thenErr (boundedGrowF_safe _ _ _ _ _ _ _ hb s4.safe)))))
          · cases h

theorem appendRestF_safe (hS : Complete S) {fuel h depth rep : Nat} {n n' : FSN} {db db' : DB} {e : Err} (hr : appendRestF fuel h n depth rep db = (.error e, n', db'))
    (hs : Safe S db n.links) : SafeErr S db db' n'.links := by
  unfold appendRestF at hr
  split at hr
  · next hA =>
    cases hr
    exact appendFillLastChildF_safe hS (appendRecF_eq h) (fun _ _ _ _ _ _ h hn => appendRec_safe hS _ _ _ _ _ _ _ h hn)
      (fun _ _ _ _ _ h hn => appendRecF_safe hS _ _ _ _ _ _ h hn) hA hs
  · next n3 db3 hA =>
    have s3 := appendFillLastChild_safe hS (fun _ _ _ _ _ _ h hn => appendRec_safe hS _ _ _ _ _ _ _ h hn) (appendFillLastChild_of hA) hs
    have s4 := s3.safe.same (done_same _)
    simp only at hr
    split at hr
    · next hg => cases hr; exact s3.thenErr (s4.thenErr (growLoopF_safe _ _ _ _ _ _ _ hg s4.safe))
    · next hg =>
      have s5 := growLoop_safe _ _ _ _ _ _ (growLoop_of hg) s4.safe
      split at hr <;> cases hr
      exact s3.thenErr (s4.thenErr s5.err)

/-- What is left of the node by a failed `Append`, and what it has stored. -/
theorem appendF_safe (hS : Complete S) {fuel h : Nat} {base r : Node} {db db' : DB} {e : Err} (hr : appendF fuel h base db = (.error e, r, db'))
    (hs : Safe S db base.links) : SafeErr S db db' r.links := by
  unfold appendF at hr
  split at hr
  · split at hr
    · cases hr; exact (SafeStep.refl hs).err
    · next d ls b fsn hf =>
      have h0 : Safe S db fsn.links := by rw [fromDag_links hf]; exact hs
      simp only at hr
      split at hr
      · split at hr
        · next hL => cases hr; exact fillNodeLayerF_safe hL h0
        · next hL =>
          have s1 := fillNodeLayer_safe (fillNodeLayer_of hL) h0
          split at hr
          · cases hr
          · next he =>
            have s2 := s1.safe.same (done_same' he)
            rcases hx : appendRestF fuel h _ 1 (depthInfo fsn db.maxlinks).2 _ with ⟨r', n5, db5⟩
            rw [hx] at hr
            cases hr
            exact s1.thenErr (s2.thenErr (appendRestF_safe hS hx s2.safe))
      · rcases hx : appendRestF fuel h fsn (depthInfo fsn db.maxlinks).1 (depthInfo fsn db.maxlinks).2 db with ⟨r', n5, db5⟩
        rw [hx] at hr
        cases hr
        exact appendRestF_safe hS hx h0
  · cases hr; exact (SafeStep.refl hs).err

end Trickle
end Unixfs.Import
