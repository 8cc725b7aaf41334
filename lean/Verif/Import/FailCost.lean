import Verif.Import.FailKin
import Verif.Import.Cost

/-! # How many blocks an `Append` that fails has stored (C93)

The definitions in this file belong to proofs; they model no code.
-/

namespace Unixfs.Import.Trickle
open Unixfs.Import

/-- What was stored in `db'` is due in `db`, but for `k` blocks. -/
def Spent (k : Nat) (db db' : DB) : Prop := db'.added.length ≤ due db + k

theorem Spent.mono {j k : Nat} {db db' : DB} (h : Spent j db db') (hk : j ≤ k) : Spent k db db' := by unfold Spent at *; omega

theorem Paid.spent {k : Nat} {db db' : DB} (h : Paid k db db') : Spent k db db' := by
  have := h.le
  unfold Spent
  unfold due at this
  unfold due
  omega

theorem Paid.thenSpent {j k : Nat} {a b c : DB} (h : Paid j a b) (h' : Spent k b c) : Spent (j + k) a c := by
  have := h.le
  unfold Spent at *
  omega

theorem Same.spent {db db' : DB} (h : Same db db') : Spent 0 db db' := by
  unfold Spent due; rw [h.added]; omega

theorem addChildF_spent {n n' : FSN} {c : Built} {sz : UInt64} {db db' : DB} {e : Err} (h : n.addChildF c sz db = (.error e, n', db')) : db' = db :=
  (addChildF_error h).1

theorem fillLayerLoopF_spent : ∀ (k : Nat) (n : FSN) (db : DB) (e : Err) (n' : FSN) (db' : DB), db.Inv →
    DB.fillLayerLoopF k n db = (.error e, n', db') → Spent 0 db db'
  | 0, n, db, e, n', db', hi, h => by cases h
  | k + 1, n, db, e, n', db', hi, h => by
    unfold DB.fillLayerLoopF at h
    split at h
    · cases h
    · next db1 hd =>
      have p1 := done_eq_paid hi hd
      have hsame := newLeafDataNodeF_same db1 TRaw
      split at h
      · next hl => rw [hl] at hsame; cases h; exact p1.thenSpent (Same.spent hsame)
      · next hl =>
        obtain ⟨i2, m2, u2⟩ := leaf_paid p1.inv (done_false_more hi hd) (newLeafDataNode_of hl)
        have := p1.le
        split at h
        · next ha => cases h; obtain rfl := addChildF_spent ha; have hg : ∀ x : DB, x.added.length ≤ due x := (fun x => by unfold due; omega); have := hg db'; unfold Spent; omega
        · next ha =>
          have p3 := addChild_paid i2 (addChild_of ha)
          have p4 := fillLayerLoopF_spent k _ _ _ _ _ p3.inv h
          have := p3.le
          unfold Spent at *
          omega

theorem fillNodeLayerF_spent {n n' : FSN} {db db' : DB} {e : Err} (hi : db.Inv) (h : DB.fillNodeLayerF n db = (.error e, n', db')) : Spent 0 db db' := by
  unfold DB.fillNodeLayerF at h
  split at h
  · next hl => cases h; exact fillLayerLoopF_spent _ _ _ _ _ _ hi hl
  · next hl =>
    split at h
    · cases h; exact (fillLayerLoop_paid _ _ _ _ _ hi (fillLayerLoop_of hl)).1.spent
    · cases h

/-- A function that failed to build a sub-graph. -/
def SubSpent (m : Nat) (sub : DB → Except Err (Node × UInt64) × DB) : Prop :=
  ∀ db e db', db.Inv → db.More → db.maxlinks = m → sub db = (.error e, db') → Spent 0 db db'

theorem repeatLoopF_spent {m : Nat} {subF sub} (hq : ∀ db, okState (subF db) = sub db) (hc : SubPaid m sub) (hcF : SubSpent m subF) :
    ∀ (k : Nat) (n : FSN) (db : DB) (e : Err) (n' : FSN) (db' : DB), db.Inv → db.maxlinks = m → repeatLoopF subF k n db = (.error e, n', db') →
    Spent 0 db db'
  | 0, n, db, e, n', db', hi, hm, h => by cases h
  | k + 1, n, db, e, n', db', hi, hm, h => by
    unfold repeatLoopF at h
    split at h
    · cases h
    · next db1 hd =>
      have p1 := done_eq_paid hi hd
      have more := done_false_more hi hd
      split at h
      · next hl => cases h; exact p1.thenSpent (hcF _ _ _ p1.inv more (p1.maxlinks.trans hm) hl)
      · next hl =>
        obtain ⟨p2, u2⟩ := hc _ _ _ p1.inv more (p1.maxlinks.trans hm) (by rw [← hq, hl]; rfl)
        have := p1.le
        split at h
        · next ha => cases h; obtain rfl := addChildF_spent ha; have hg : ∀ x : DB, x.added.length ≤ due x := (fun x => by unfold due; omega); have := hg db'; unfold Spent; omega
        · next ha =>
          have p3 := addChild_paid p2.inv (addChild_of ha)
          have p4 := repeatLoopF_spent hq hc hcF k _ _ _ _ _ p3.inv (by rw [p3.maxlinks, p2.maxlinks, p1.maxlinks, hm]) h
          have := p3.le
          unfold Spent at *
          omega

theorem subOf_spent {m : Nat} (hm : 0 < m) {d : Nat}
    (hl : ∀ (n : FSN) (db : DB) (e : Err) (n' : FSN) (db' : DB), db.Inv → db.maxlinks = m → layersF d n db = (.error e, n', db') → Spent 0 db db') :
    SubSpent m (subTrickleF d) := by
  intro db e db' hi more hml h
  unfold subTrickleF at h
  split at h
  · next hx => cases h; exact fillNodeLayerF_spent hi hx
  · next hx =>
    have p1 := (fillNodeLayer_paid hi (fillNodeLayer_of hx)).1
    split at h
    · next hy => cases h; exact p1.thenSpent (hl _ _ _ _ _ p1.inv (p1.maxlinks.trans hml) hy)
    · next hy =>
      have p2 := layers_paid hm d _ _ _ _ p1.inv (p1.maxlinks.trans hml) (layers_of hy)
      unfold finishF at h
      split at h <;> cases h
      exact (p1.trans p2).spent

theorem layersF_succ (d : Nat) (n : FSN) (db : DB) : layersF (d + 1) n db =
    match layersF d n db with
    | (.error e, node, db) => (.error e, node, db)
    | (.ok (), node, db) =>
      if d = 0 then (.ok (), node, db)
      else match db.done with
        | (true, db) => (.ok (), node, db)
        | (false, db) => repeatLoopF (subTrickleF d) depthRepeat node db := by
  rw [layersF]
  rfl

theorem layersF_spent {m : Nat} (hm : 0 < m) : ∀ (d : Nat) (n : FSN) (db : DB) (e : Err) (n' : FSN) (db' : DB), db.Inv → db.maxlinks = m →
    layersF d n db = (.error e, n', db') → Spent 0 db db'
  | 0, n, db, e, n', db', hi, hml, h => by unfold layersF at h; cases h
  | d + 1, n, db, e, n', db', hi, hml, h => by
    rw [layersF_succ] at h
    split at h
    · next hl => cases h; exact layersF_spent hm d _ _ _ _ _ hi hml hl
    · next hl =>
      have p1 := layers_paid hm d _ _ _ _ hi hml (layers_of hl)
      split at h
      · cases h
      split at h
      · cases h
      · next hd =>
        have p2 := p1.trans (done_eq_paid p1.inv hd)
        exact p2.thenSpent (repeatLoopF_spent (subTrickleF_eq d) (subTrickle_paid hm d) (subOf_spent hm (layersF_spent hm d)) _ _ _ _ _ _ p2.inv (p2.maxlinks.trans hml) h)

theorem subTrickleF_spent {m : Nat} (hm : 0 < m) (d : Nat) : SubSpent m (subTrickleF d) := subOf_spent hm (layersF_spent hm d)

theorem growLoopF_spent {m : Nat} (hm : 0 < m) : ∀ (fuel i : Nat) (n : FSN) (db : DB) (e : Err) (n' : FSN) (db' : DB), db.Inv → db.maxlinks = m →
    growLoopF fuel i n db = (.error e, n', db') → Spent 0 db db'
  | 0, i, n, db, e, n', db', hi, hml, h => by
    unfold growLoopF at h
    split at h
    · cases h
    · next hd => cases h; exact (done_eq_paid hi hd).spent
  | fuel + 1, i, n, db, e, n', db', hi, hml, h => by
    unfold growLoopF at h
    split at h
    · cases h
    · next hd =>
      have p1 := done_eq_paid hi hd
      have hml1 := p1.maxlinks.trans hml
      split at h
      · next hr => cases h; exact p1.thenSpent (repeatLoopF_spent (subTrickleF_eq i) (subTrickle_paid hm i) (subTrickleF_spent hm i) _ _ _ _ _ _ p1.inv hml1 hr)
      · next hr =>
        have p2 := p1.trans (repeatLoop_paid (subTrickle_paid hm i) _ _ _ _ _ p1.inv hml1 (repeatLoop_of hr))
        exact p2.thenSpent (growLoopF_spent hm fuel _ _ _ _ _ _ p2.inv (p2.maxlinks.trans hml) h)

theorem boundedGrowF_spent {m : Nat} (hm : 0 < m) : ∀ (k i : Nat) (n : FSN) (db : DB) (e : Err) (n' : FSN) (db' : DB), db.Inv → db.maxlinks = m →
    boundedGrowF k i n db = (.error e, n', db') → Spent 0 db db'
  | 0, i, n, db, e, n', db', hi, hml, h => by cases h
  | k + 1, i, n, db, e, n', db', hi, hml, h => by
    unfold boundedGrowF at h
    split at h
    · cases h
    · next hd =>
      have p1 := done_eq_paid hi hd
      have hml1 := p1.maxlinks.trans hml
      split at h
      · next hr => cases h; exact p1.thenSpent (repeatLoopF_spent (subTrickleF_eq i) (subTrickle_paid hm i) (subTrickleF_spent hm i) _ _ _ _ _ _ p1.inv hml1 hr)
      · next hr =>
        have p2 := p1.trans (repeatLoop_paid (subTrickle_paid hm i) _ _ _ _ _ p1.inv hml1 (repeatLoop_of hr))
        exact p2.thenSpent (boundedGrowF_spent hm k _ _ _ _ _ _ p2.inv (p2.maxlinks.trans hml) h)

theorem appendFillLastChildF_spent {m : Nat} (hm : 0 < m) {recF : FSN → DB → Int → Except Err (FSN × UInt64) × DB} {rec : FSN → DB → Int → Except Err ((FSN × UInt64) × DB)}
    (hq : ∀ n db d, okState (recF n db d) = rec n db d)
    (hrec : ∀ fsn db md r db', db.Inv → db.maxlinks = m → rec fsn db md = .ok (r, db') → Paid (Spec.heightL fsn.links) db db')
    (hrecF : ∀ fsn db md e db', db.Inv → db.maxlinks = m → recF fsn db md = (.error e, db') → Spent (Spec.heightL fsn.links) db db')
    {n n' : FSN} {depth rep : Nat} {db db' : DB} {e : Err} (hi : db.Inv) (hml : db.maxlinks = m) (h : appendFillLastChildF recF n depth rep db = (.error e, n', db')) :
    Spent (if n.numChildren ≤ m then 0 else Spec.heightL n.links) db db' := by
  unfold appendFillLastChildF at h
  rw [hml] at h
  split at h
  · cases h
  next hle =>
  rw [if_neg hle]
  simp only at h
  split at h
  · cases h; exact (Paid.refl hi).spent.mono (by omega)
  · next lastChild hg =>
    have hh := getChild_height hg
    split at h
    · next hr => cases h; exact (hrecF _ _ _ _ _ hi hml hr).mono (by omega)
    · next hr =>
      have p1 := hrec _ _ _ _ _ hi hml (by rw [← hq, hr]; rfl)
      split at h
      · cases h; exact p1.spent.mono (by omega)
      · split at h
        · cases h; exact p1.spent.mono (by omega)
        · split at h
          · next ha => cases h; obtain rfl := addChildF_spent ha; exact p1.spent.mono (by omega)
          · next ha =>
            have p2 := p1.trans (addChild_paid p1.inv (addChild_of ha))
            split at h
            · exact (p2.thenSpent (repeatLoopF_spent (subTrickleF_eq depth) (subTrickle_paid hm depth) (subTrickleF_spent hm depth) _ _ _ _ _ _ p2.inv (p2.maxlinks.trans hml) h)).mono (by omega)
            · cases h

theorem appendRecF_spent {m : Nat} (hm : 0 < m) : ∀ (fuel : Nat) (n : FSN) (db : DB) (d : Int) (e : Err) (db' : DB), db.Inv → db.maxlinks = m →
    appendRecF fuel n db d = (.error e, db') → Spent (Spec.heightL n.links) db db'
  | 0, n, db, d, e, db', hi, hml, h => by cases h; exact (Paid.refl hi).spent.mono (by omega)
  | fuel + 1, n, db, d, e, db', hi, hml, h => by
    unfold appendRecF at h
    split at h
    · cases h
    split at h
    · cases h
    · next db1 hd =>
      have p1 := done_eq_paid hi hd
      simp only at h
      split at h
      · next hD =>
        cases h
        unfold appendDirectF at hD
        split at hD
        · split at hD
          · next hf => cases hD; exact (p1.thenSpent (fillNodeLayerF_spent p1.inv hf)).mono (by omega)
          · cases hD
        · cases hD
      · next depth n2 db2 hD =>
        obtain ⟨p2, hf2⟩ := appendDirect_paid p1.inv (appendDirect_of hD)
        replace p2 := p1.trans p2
        have hbound : (if n2.numChildren ≤ m then 0 else Spec.heightL n2.links) ≤ Spec.heightL n.links := by
          rcases hf2 with rfl | hle
          · split <;> omega
          · rw [if_pos (by rw [← hml, ← p1.maxlinks]; exact hle)]; omega
        split at h
        · cases h
        split at h
        · next hA =>
          cases h
          exact (p2.thenSpent (appendFillLastChildF_spent hm (appendRecF_eq fuel) (appendRec_paid hm fuel) (appendRecF_spent hm fuel) p2.inv (p2.maxlinks.trans hml) hA)).mono (by omega)
        · next n3 db3 hA =>
          have p3 := p2.trans (appendFillLastChild_paid hm (appendRec_paid hm fuel) p2.inv (p2.maxlinks.trans hml) (appendFillLastChild_of hA))
          have p4 := p3.trans (done_paid db3 p3.inv)
          split at h
          · next hb => cases h; exact (p4.thenSpent (boundedGrowF_spent hm _ _ _ _ _ _ _ p4.inv (p4.maxlinks.trans hml) hb)).mono (by omega)
          · cases h

theorem appendRestF_spent {m : Nat} (hm : 0 < m) {fuel h depth rep : Nat} {n n' : FSN} {db db' : DB} {e : Err} (hi : db.Inv) (hml : db.maxlinks = m)
    (hr : appendRestF fuel h n depth rep db = (.error e, n', db')) : Spent (if n.numChildren ≤ m then 0 else Spec.heightL n.links) db db' := by
  unfold appendRestF at hr
  split at hr
  · next hA =>
    cases hr
    exact appendFillLastChildF_spent hm (appendRecF_eq h) (appendRec_paid hm h) (appendRecF_spent hm h) hi hml hA
  · next n3 db3 hA =>
    have p1 := appendFillLastChild_paid hm (appendRec_paid hm h) hi hml (appendFillLastChild_of hA)
    have p2 := p1.trans (done_paid db3 p1.inv)
    simp only at hr
    split at hr
    · next hg => cases hr; exact (p2.thenSpent (growLoopF_spent hm _ _ _ _ _ _ _ p2.inv (p2.maxlinks.trans hml) hg)).mono (by omega)
    · next hg =>
      have p3 := p2.trans (growLoop_paid hm _ _ _ _ _ _ p2.inv (p2.maxlinks.trans hml) (growLoop_of hg))
      split at hr <;> cases hr
      exact p3.spent.mono (by omega)

/-- An `Append` that fails has stored at most two blocks per chunk and one per level of the base. -/
theorem appendF_spent {fuel h : Nat} {base r : Node} {db db' : DB} {e : Err} (hi : db.Inv) (hm : 0 < db.maxlinks)
    (hr : appendF fuel h base db = (.error e, r, db')) : Spent (Spec.height base) db db' := by
  unfold appendF at hr
  split at hr
  · split at hr
    · cases hr; exact (Paid.refl hi).spent.mono (by omega)
    · next fsn hf =>
      have hls := fromDag_links hf
      simp only at hr
      split at hr
      · next h0 =>
        split at hr
        · next hL => cases hr; exact (fillNodeLayerF_spent hi hL).mono (by omega)
        · next hL =>
          have h1 := fillNodeLayer_of hL
          have p1 := (fillNodeLayer_paid hi h1).1
          have hle := fillNodeLayer_numChildren (by have := depthInfo_zero h0; omega) h1
          split at hr
          · cases hr
          · next hd =>
            have p2 := p1.trans (done_eq_paid p1.inv hd)
            rcases hx : appendRestF fuel h _ 1 (depthInfo fsn db.maxlinks).2 _ with ⟨r', n5, db5⟩
            rw [hx] at hr
            cases hr
            have p3 := appendRestF_spent (p2.maxlinks ▸ hm) p2.inv rfl hx
            rw [if_pos (by rw [p2.maxlinks]; exact hle)] at p3
            exact (p2.thenSpent p3).mono (by omega)
      · rcases hx : appendRestF fuel h fsn (depthInfo fsn db.maxlinks).1 (depthInfo fsn db.maxlinks).2 db with ⟨r', n5, db5⟩
        rw [hx] at hr
        cases hr
        refine (appendRestF_spent hm hi rfl hx).mono ?_
        rw [hls]
        simp only [Spec.height]
        split <;> omega
  · cases hr; exact (Paid.refl hi).spent.mono (by omega)

end Unixfs.Import.Trickle
