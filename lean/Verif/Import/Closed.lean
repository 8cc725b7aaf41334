import Verif.Import.Helpers
import Verif.Import.Trickle

/-! # Properties of nodes that `Append` keeps (C98)

The definitions in this file belong to proofs; they model no code.
-/

namespace Unixfs.Import

/-- A property `T` of nodes and one, `N`, of nodes under construction, so that all the steps of the builder lead from the one to the other. -/
structure Closed (T : Node → Prop) (N : FSN → Prop) : Prop where
  new : ∀ db, N (FSN.new db TFile)
  child : ∀ {n n' : FSN} {b : Built} {sz : UInt64} {db db' : DB}, n.addChild b sz db = .ok (n', db') → N n → T b.node → N n'
  commit : ∀ {n n' : FSN} {k : Node}, n.commit = .ok (k, n') → N n → T k ∧ N n'
  leaf : ∀ {db : DB} {d : Option Bytes} {n : Node}, db.newLeafNode d TRaw = .ok n → T n
  load : ∀ {d ls b} {n : FSN}, FSN.fromDag d ls b = .ok n → T (.proto d ls b) → N n
  links : ∀ {n : FSN}, N n → ∀ l ∈ n.links, T l.target
  remove : ∀ {n f : FSN} {i : Nat}, n.removeChild i = .ok f → N n → N f

variable {T : Node → Prop} {N : FSN → Prop}

theorem newLeafDataNode_closed (hC : Closed T N) {db db' : DB} {b : Built} {sz : UInt64} (h : db.newLeafDataNode TRaw = .ok ((b, sz), db')) : T b.node := by
  unfold DB.newLeafDataNode at h
  split at h
  · cases h
  · simp only at h
    split at h
    · cases h
    · next hl =>
      have h2 := hC.leaf hl
      cases h
      unfold DB.processFileStore
      split <;> exact h2

theorem fillLayerLoop_closed (hC : Closed T N) : ∀ (k : Nat) (n : FSN) (db : DB) (n' : FSN) (db' : DB), DB.fillLayerLoop k n db = .ok (n', db') → N n → N n'
  | 0, n, db, n', db', h, hn => by cases h; exact hn
  | k + 1, n, db, n', db', h, hn => by
    unfold DB.fillLayerLoop at h
    split at h
    · cases h; exact hn
    · split at h
      · cases h
      · next hl =>
        split at h
        · cases h
        · next ha => exact fillLayerLoop_closed hC k _ _ _ _ h (hC.child ha hn (newLeafDataNode_closed hC hl))

/-- The node is committed, so that the second part holds. -/
theorem fillNodeLayer_closed (hC : Closed T N) {n n' : FSN} {db db' : DB} (h : DB.fillNodeLayer n db = .ok (n', db')) (hn : N n) : N n' ∧ T n'.getDagNode := by
  unfold DB.fillNodeLayer at h
  split at h
  · cases h
  · next hl =>
    have h1 := fillLayerLoop_closed hC _ _ _ _ _ hl hn
    split at h
    · cases h
    · next hc =>
      cases h
      have := hC.commit hc h1
      refine ⟨this.2, ?_⟩
      unfold FSN.commit at hc
      split at hc <;> cases hc
      exact this.1

namespace Trickle

/-- A function that builds a sub-graph. -/
def SubClosed (T : Node → Prop) (sub : DB → Except Err ((Node × UInt64) × DB)) : Prop := ∀ db n sz db', sub db = .ok ((n, sz), db') → T n

theorem repeatLoop_closed (hC : Closed T N) {sub} (hc : SubClosed T sub) : ∀ (k : Nat) (n : FSN) (db : DB) (n' : FSN) (db' : DB), repeatLoop sub k n db = .ok (n', db') → N n → N n'
  | 0, n, db, n', db', h, hn => by cases h; exact hn
  | k + 1, n, db, n', db', h, hn => by
    unfold repeatLoop at h
    split at h
    · cases h; exact hn
    · split at h
      · cases h
      · next hl =>
        split at h
        · cases h
        · next ha => exact repeatLoop_closed hC hc k _ _ _ _ h (hC.child ha hn (hc _ _ _ _ hl))

theorem finish_closed (hC : Closed T N) {n : FSN} {db db' : DB} {k : Node} {sz : UInt64} (h : finish n db = .ok ((k, sz), db')) (hn : N n) : T k := by
  unfold finish at h
  split at h
  · cases h
  · next hc => cases h; exact (hC.commit hc hn).1

theorem layers_closed (hC : Closed T N) : ∀ (d : Nat) (n : FSN) (db : DB) (n' : FSN) (db' : DB), layers d n db = .ok (n', db') → N n → N n'
  | 0, n, db, n', db', h, hn => by unfold layers at h; cases h; exact hn
  | d + 1, n, db, n', db', h, hn => by
    unfold layers at h
    split at h
    · cases h
    · next hl =>
      have h1 := layers_closed hC d _ _ _ _ hl hn
      split at h
      · cases h; exact h1
      split at h
      · cases h; exact h1
      · refine repeatLoop_closed hC ?_ _ _ _ _ _ h h1
        intro db n sz db' h
        dsimp only at h
        split at h
        · cases h
        · next hf =>
          split at h
          · cases h
          · next hl2 => exact finish_closed hC h (layers_closed hC d _ _ _ _ hl2 (fillNodeLayer_closed hC hf (hC.new _)).1)

theorem subTrickle_closed (hC : Closed T N) (i : Nat) : SubClosed T (subTrickle i) := by
  intro db n sz db' h
  unfold subTrickle fillTrickle at h
  split at h
  · cases h
  · next hf =>
    split at h
    · cases h
    · next hl2 => exact finish_closed hC h (layers_closed hC _ _ _ _ _ hl2 (fillNodeLayer_closed hC hf (hC.new _)).1)

theorem growLoop_closed (hC : Closed T N) : ∀ (fuel i : Nat) (n : FSN) (db : DB) (n' : FSN) (db' : DB), growLoop fuel i n db = .ok (n', db') → N n → N n'
  | 0, i, n, db, n', db', h, hn => by
    unfold growLoop at h
    split at h <;> cases h
    exact hn
  | fuel + 1, i, n, db, n', db', h, hn => by
    unfold growLoop at h
    split at h
    · cases h; exact hn
    · split at h
      · cases h
      · next hr => exact growLoop_closed hC fuel _ _ _ _ _ h (repeatLoop_closed hC (subTrickle_closed hC i) _ _ _ _ _ hr hn)

theorem boundedGrow_closed (hC : Closed T N) : ∀ (k i : Nat) (n : FSN) (db : DB) (n' : FSN) (db' : DB), boundedGrow k i n db = .ok (n', db') → N n → N n'
  | 0, i, n, db, n', db', h, hn => by cases h; exact hn
  | k + 1, i, n, db, n', db', h, hn => by
    unfold boundedGrow at h
    split at h
    · cases h; exact hn
    · split at h
      · cases h
      · next hr => exact boundedGrow_closed hC k _ _ _ _ _ h (repeatLoop_closed hC (subTrickle_closed hC i) _ _ _ _ _ hr hn)

theorem appendFillLastChild_closed (hC : Closed T N) {rec} (hrec : ∀ n db d n' sz db', rec n db d = .ok ((n', sz), db') → N n → N n')
    {n n' : FSN} {depth rep : Nat} {db db' : DB} (h : appendFillLastChild rec n depth rep db = .ok (n', db')) (hn : N n) : N n' := by
  unfold appendFillLastChild at h
  split at h
  · cases h; exact hn
  simp only at h
  split at h
  · cases h
  · next lastChild hg =>
    have hlc : N lastChild := by
      unfold FSN.getChild at hg
      split at hg
      · cases hg
      · next l hl =>
        have := hC.links hn l (List.mem_of_getElem? hl)
        split at hg
        · split at hg
          · next ht => rw [ht] at this; exact hC.load hg this
          · cases hg
        · cases hg
    split at h
    · cases h
    · next hr =>
      have h1 := hrec _ _ _ _ _ _ hr hlc
      split at h
      · cases h
      · next hrm =>
        split at h
        · cases h
        · next hc =>
          split at h
          · cases h
          · next ha =>
            have h4 := hC.child ha (hC.remove hrm hn) (hC.commit hc h1).1
            split at h
            · exact repeatLoop_closed hC (subTrickle_closed hC _) _ _ _ _ _ h h4
            · cases h; exact h4

theorem appendRec_closed (hC : Closed T N) : ∀ (fuel : Nat) (n : FSN) (db : DB) (d : Int) (n' : FSN) (sz : UInt64) (db' : DB),
    appendRec fuel n db d = .ok ((n', sz), db') → N n → N n'
  | 0, n, db, d, n', sz, db', h, hn => by cases h
  | fuel + 1, n, db, d, n', sz, db', h, hn => by
    unfold appendRec at h
    split at h
    · cases h; exact hn
    split at h
    · cases h; exact hn
    · simp only at h
      split at h
      · cases h
      · next n2 depth db2 hD =>
        have s2 : N n2 := by
          unfold appendDirect at hD
          split at hD
          · split at hD
            · cases hD
            · next hf => cases hD; exact (fillNodeLayer_closed hC hf hn).1
          · cases hD; exact hn
        split at h
        · cases h; exact s2
        split at h
        · cases h
        · next n3 db3 hA =>
          have s3 := appendFillLastChild_closed hC (fun _ _ _ _ _ _ h hn => appendRec_closed hC fuel _ _ _ _ _ _ h hn) hA s2
          split at h
          · cases h
          · next hb =>
            cases h
            exact boundedGrow_closed hC _ _ _ _ _ _ hb s3

theorem appendRest_closed (hC : Closed T N) {fuel h depth rep : Nat} {n : FSN} {db db' : DB} {r : Node} (hr : appendRest fuel h n depth rep db = .ok (r, db'))
    (hn : N n) : T r := by
  unfold appendRest at hr
  split at hr
  · cases hr
  · next n3 db3 hA =>
    have s3 := appendFillLastChild_closed hC (fun _ _ _ _ _ _ h hn => appendRec_closed hC _ _ _ _ _ _ _ h hn) hA hn
    simp only at hr
    split at hr
    · cases hr
    · next hg =>
      have s4 := growLoop_closed hC _ _ _ _ _ _ hg s3
      split at hr
      · cases hr
      · next hc => cases hr; exact (hC.commit hc s4).1

/-- `Append`. -/
theorem append_closed (hC : Closed T N) {fuel h : Nat} {base r : Node} {db db' : DB} (hr : append fuel h base db = .ok (r, db')) (hb : T base) : T r := by
  unfold append at hr
  split at hr
  · split at hr
    · cases hr
    · next d ls b fsn hf =>
      have hn := hC.load hf hb
      simp only at hr
      split at hr
      · split at hr
        · cases hr
        · next hL =>
          have s1 := fillNodeLayer_closed hC hL hn
          split at hr
          · cases hr; exact s1.2
          · exact appendRest_closed hC hr s1.1
      · exact appendRest_closed hC hr hn
  · cases hr

/-- `Layout`. -/
theorem layout_closed (hC : Closed T N) {fuel : Nat} {r : Node} {db db' : DB} (h : layout fuel db = .ok (r, db')) : T r := by
  unfold layout at h
  split at h
  · cases h
  · next hf =>
    split at h
    · cases h
    · next hg =>
      split at h
      · cases h
      · next hfin =>
        split at h <;> cases h
        exact finish_closed hC hfin (growLoop_closed hC _ _ _ _ _ _ hg (fillNodeLayer_closed hC hf (hC.new _)).1)

end Trickle
end Unixfs.Import
