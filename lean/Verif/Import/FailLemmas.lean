import Verif.Import.Fail

/-! # The functions followed to the point of failure agree with the others

The definitions in this file belong to proofs; they model no code.
-/

namespace Unixfs.Import

/-- The result without the state after an error. -/
def okState {α σ : Type} : Except Err α × σ → Except Err (α × σ)
  | (.ok a, s) => .ok (a, s)
  | (.error e, _) => .error e

/-- The result without the state after an error, for functions that return nothing but the state. -/
def okNode {σ : Type} : Except Err Unit × σ → Except Err σ
  | (.ok (), s) => .ok s
  | (.error e, _) => .error e

theorem nextF_eq (db : DB) : okState db.nextF = db.next := by
  unfold DB.nextF DB.next
  dsimp only
  cases db.prepareNext.recvdErr <;> rfl

theorem newLeafDataNodeF_eq (db : DB) (t : UInt32) : okState (db.newLeafDataNodeF t) = db.newLeafDataNode t := by
  unfold DB.newLeafDataNodeF DB.newLeafDataNode
  rw [← nextF_eq]
  rcases db.nextF with ⟨e | d, db1⟩
  · rfl
  · simp only [okState]
    cases db1.newLeafNode d t <;> rfl

theorem addChildF_eq (n : FSN) (c : Built) (sz : UInt64) (db : DB) : okNode (n.addChildF c sz db) = n.addChild c sz db := by
  unfold FSN.addChildF FSN.addChild
  dsimp only
  cases db.add c <;> rfl

theorem fillLayerLoopF_eq : ∀ (k : Nat) (n : FSN) (db : DB), okNode (DB.fillLayerLoopF k n db) = DB.fillLayerLoop k n db
  | 0, n, db => rfl
  | k + 1, n, db => by
    unfold DB.fillLayerLoopF DB.fillLayerLoop
    rcases db.done with ⟨_ | _, db1⟩
    · simp only
      rw [← newLeafDataNodeF_eq]
      rcases db1.newLeafDataNodeF TRaw with ⟨e | ⟨c, sz⟩, db2⟩
      · rfl
      · simp only [okState]
        rw [← addChildF_eq]
        rcases n.addChildF c sz db2 with ⟨e | ⟨⟩, n3, db3⟩
        · rfl
        · simp only [okNode]
          exact fillLayerLoopF_eq k n3 db3
    · rfl

theorem fillNodeLayerF_eq (n : FSN) (db : DB) : okNode (DB.fillNodeLayerF n db) = DB.fillNodeLayer n db := by
  unfold DB.fillNodeLayerF DB.fillNodeLayer
  rw [← fillLayerLoopF_eq]
  rcases DB.fillLayerLoopF (db.maxlinks - n.numChildren) n db with ⟨e | ⟨⟩, n3, db3⟩
  · rfl
  · simp only [okNode]
    cases n3.commit <;> rfl

namespace Trickle

theorem repeatLoopF_eq {subF sub} (hs : ∀ db, okState (subF db) = sub db) : ∀ (k : Nat) (n : FSN) (db : DB), okNode (repeatLoopF subF k n db) = repeatLoop sub k n db
  | 0, n, db => rfl
  | k + 1, n, db => by
    unfold repeatLoopF repeatLoop
    rcases db.done with ⟨_ | _, db1⟩
    · simp only
      rw [← hs]
      rcases subF db1 with ⟨e | ⟨c, sz⟩, db2⟩
      · rfl
      · simp only [okState]
        rw [← addChildF_eq]
        rcases n.addChildF ⟨c, none⟩ sz db2 with ⟨e | ⟨⟩, n3, db3⟩
        · rfl
        · simp only [okNode]
          exact repeatLoopF_eq hs k n3 db3
    · rfl

theorem finishF_eq (n : FSN) (db : DB) : okState (finishF n db) = finish n db := by
  unfold finishF finish
  cases n.commit <;> rfl

theorem layersF_eq : ∀ (d : Nat) (n : FSN) (db : DB), okNode (layersF d n db) = layers d n db
  | 0, n, db => by unfold layersF layers; rfl
  | d + 1, n, db => by
    unfold layersF layers
    rw [← layersF_eq d]
    rcases layersF d n db with ⟨e | ⟨⟩, n3, db3⟩
    · rfl
    · simp only [okNode]
      by_cases hd : d = 0
      · rw [if_pos hd, if_pos hd]
      rw [if_neg hd, if_neg hd]
      rcases db3.done with ⟨_ | _, db4⟩
      · simp only
        refine repeatLoopF_eq (fun db => ?_) _ _ _
        rw [← fillNodeLayerF_eq]
        rcases DB.fillNodeLayerF (FSN.new db TFile) db with ⟨e | ⟨⟩, n5, db5⟩
        · rfl
        · simp only [okNode]
          rw [← layersF_eq d]
          rcases layersF d n5 db5 with ⟨e | ⟨⟩, n6, db6⟩
          · rfl
          · exact finishF_eq _ _
      · rfl

theorem subTrickleF_eq (i : Nat) (db : DB) : okState (subTrickleF i db) = subTrickle i db := by
  unfold subTrickleF subTrickle fillTrickle
  rw [← fillNodeLayerF_eq]
  rcases DB.fillNodeLayerF (FSN.new db TFile) db with ⟨e | ⟨⟩, n5, db5⟩
  · rfl
  · simp only [okNode]
    rw [← layersF_eq]
    rcases layersF i n5 db5 with ⟨e | ⟨⟩, n6, db6⟩
    · rfl
    · exact finishF_eq _ _

theorem growLoopF_eq : ∀ (fuel i : Nat) (n : FSN) (db : DB), okNode (growLoopF fuel i n db) = growLoop fuel i n db
  | 0, i, n, db => by
    unfold growLoopF growLoop
    rcases db.done with ⟨_ | _, db1⟩ <;> rfl
  | fuel + 1, i, n, db => by
    unfold growLoopF growLoop
    rcases db.done with ⟨_ | _, db1⟩
    · simp only
      rw [← repeatLoopF_eq (subTrickleF_eq i)]
      rcases repeatLoopF (subTrickleF i) depthRepeat n db1 with ⟨e | ⟨⟩, n3, db3⟩
      · rfl
      · exact growLoopF_eq fuel _ _ _
    · rfl

theorem boundedGrowF_eq : ∀ (k i : Nat) (n : FSN) (db : DB), okNode (boundedGrowF k i n db) = boundedGrow k i n db
  | 0, i, n, db => rfl
  | k + 1, i, n, db => by
    unfold boundedGrowF boundedGrow
    rcases db.done with ⟨_ | _, db1⟩
    · simp only
      rw [← repeatLoopF_eq (subTrickleF_eq i)]
      rcases repeatLoopF (subTrickleF i) depthRepeat n db1 with ⟨e | ⟨⟩, n3, db3⟩
      · rfl
      · exact boundedGrowF_eq k _ _ _
    · rfl

theorem appendFillLastChildF_eq {recF rec} (hs : ∀ n db d, okState (recF n db d) = rec n db d) (n : FSN) (depth rep : Nat) (db : DB) :
    okNode (appendFillLastChildF recF n depth rep db) = appendFillLastChild rec n depth rep db := by
  unfold appendFillLastChildF appendFillLastChild
  split
  · rfl
  dsimp only
  cases n.getChild (n.numChildren - 1) db.canGet with
  | error e => rfl
  | ok c =>
    simp only
    rw [← hs]
    rcases recF c db ((depth : Int) - 1) with ⟨e | ⟨nc, sz⟩, db2⟩
    · rfl
    · simp only [okState]
      cases n.removeChild (n.numChildren - 1) with
      | error e => rfl
      | ok n2 =>
        simp only
        cases nc.commit with
        | error e => rfl
        | ok q =>
          simp only
          rw [← addChildF_eq]
          rcases n2.addChildF ⟨q.1, none⟩ sz db2 with ⟨e | ⟨⟩, n3, db3⟩
          · rfl
          · simp only [okNode]
            by_cases hr : rep ≠ 0
            · rw [if_pos hr, if_pos hr]; exact repeatLoopF_eq (subTrickleF_eq _) _ _ _
            · rw [if_neg hr, if_neg hr]

theorem appendDirectF_eq (n : FSN) (db : DB) :
    (match appendDirectF n db with | (.ok d, n, db) => Except.ok ((n, d), db) | (.error e, _) => .error e) = appendDirect n db := by
  unfold appendDirectF appendDirect
  by_cases hd : (depthInfo n db.maxlinks).1 = 0
  · rw [if_pos hd, if_pos hd, ← fillNodeLayerF_eq]
    rcases DB.fillNodeLayerF n db with ⟨e | ⟨⟩, n3, db3⟩ <;> rfl
  · rw [if_neg hd, if_neg hd]

theorem appendRecF_eq : ∀ (fuel : Nat) (n : FSN) (db : DB) (d : Int), okState (appendRecF fuel n db d) = appendRec fuel n db d
  | 0, n, db, d => rfl
  | fuel + 1, n, db, d => by
    unfold appendRecF appendRec
    split
    · rfl
    rcases db.done with ⟨_ | _, db1⟩
    · simp only
      rw [← appendDirectF_eq]
      rcases appendDirectF n db1 with ⟨e | dep, n2, db2⟩
      · rfl
      · simp only
        split
        · rfl
        rw [← appendFillLastChildF_eq (appendRecF_eq fuel)]
        rcases appendFillLastChildF (appendRecF fuel) n2 dep (depthInfo n db1.maxlinks).2 db2 with ⟨e | ⟨⟩, n3, db3⟩
        · rfl
        · simp only [okNode]
          rw [← boundedGrowF_eq]
          generalize boundedGrowF _ _ n3 db3.done.2 = r
          rcases r with ⟨e | ⟨⟩, n4, db4⟩ <;> rfl
    · rfl

theorem appendRestF_eq (fuel h : Nat) (n : FSN) (depth rep : Nat) (db : DB) :
    (match appendRestF fuel h n depth rep db with | (.ok (), n, db) => Except.ok (n.getDagNode, db) | (.error e, _) => .error e) =
      appendRest fuel h n depth rep db := by
  unfold appendRestF appendRest
  rw [← appendFillLastChildF_eq (appendRecF_eq h)]
  rcases appendFillLastChildF (appendRecF h) n (depth - 1) rep db with ⟨e | ⟨⟩, n3, db3⟩
  · rfl
  · simp only [okNode]
    rw [← growLoopF_eq]
    generalize growLoopF fuel _ n3 db3.done.2 = r
    rcases r with ⟨e | ⟨⟩, n4, db4⟩
    · rfl
    · simp only [okNode]
      cases hc : n4.commit with
      | error e => rfl
      | ok q =>
        obtain ⟨k, n5⟩ := q
        simp only
        unfold FSN.commit at hc
        split at hc <;> cases hc
        rfl

/-- `appendF` agrees with `append`. -/
theorem appendF_eq (fuel h : Nat) (base : Node) (db : DB) : okNode (appendF fuel h base db) = append fuel h base db := by
  unfold appendF append
  cases base with
  | raw d b => rfl
  | other d => rfl
  | proto d ls b =>
    simp only
    cases FSN.fromDag d ls b with
    | error e => rfl
    | ok n =>
      simp only
      by_cases hd : (depthInfo n db.maxlinks).1 = 0
      · rw [if_pos hd, if_pos hd, ← fillNodeLayerF_eq]
        rcases DB.fillNodeLayerF n db with ⟨e | ⟨⟩, n3, db3⟩
        · rfl
        · simp only [okNode]
          rcases db3.done with ⟨_ | _, db4⟩
          · simp only
            rw [← appendRestF_eq]
            rcases appendRestF fuel h n3 1 (depthInfo n db.maxlinks).2 db4 with ⟨e | ⟨⟩, n5, db5⟩ <;> rfl
          · rfl
      · rw [if_neg hd, if_neg hd, ← appendRestF_eq]
        rcases appendRestF fuel h n (depthInfo n db.maxlinks).1 (depthInfo n db.maxlinks).2 db with ⟨e | ⟨⟩, n5, db5⟩ <;> rfl

/-- A call that fails: what `appendF` returns. -/
theorem appendF_error {fuel h : Nat} {base : Node} {db : DB} {e : Err} (hr : append fuel h base db = .error e) :
    ∃ n db', appendF fuel h base db = (.error e, n, db') := by
  rw [← appendF_eq] at hr
  rcases hx : appendF fuel h base db with ⟨e' | ⟨⟩, n, db'⟩
  · rw [hx] at hr; cases hr; exact ⟨n, db', rfl⟩
  · rw [hx] at hr; cases hr

/-- A call that succeeds: what `appendF` returns. -/
theorem appendF_ok {fuel h : Nat} {base n : Node} {db db' : DB} (hr : append fuel h base db = .ok (n, db')) :
    appendF fuel h base db = (.ok (), n, db') := by
  rw [← appendF_eq] at hr
  rcases hx : appendF fuel h base db with ⟨e' | ⟨⟩, n2, db2⟩
  · rw [hx] at hr; cases hr
  · rw [hx] at hr; cases hr; rfl

end Trickle
end Unixfs.Import
