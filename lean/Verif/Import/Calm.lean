import Verif.Import.Trickle
import Verif.File.Robust
import Verif.Spec.Malformed

/-!
# What `trickle.Append` can fail for, on an arbitrary, possibly malformed, base (C88)

The definitions in this file belong to proofs; they model no code.
-/

namespace Unixfs.Import
open Unixfs Unixfs.Spec

/-- No panic, and a property of the result. -/
def CalmR {α : Type} (P : α → Prop) (r : Except Err α) : Prop := r ≠ .error .panic ∧ ∀ x, r = .ok x → P x

theorem CalmR.error {α : Type} {P : α → Prop} {e : Err} (h : e ≠ .panic) : CalmR P (.error e) := ⟨(fun he => h (by cases he; rfl)), (fun _ h => by cases h)⟩

theorem CalmR.ok {α : Type} {P : α → Prop} {x : α} (h : P x) : CalmR P (.ok x : Except Err α) := ⟨(fun h => by cases h), (fun _ he => by cases he; exact h)⟩

theorem CalmR.ne {α : Type} {P : α → Prop} {e : Err} (h : CalmR P (.error e)) : e ≠ .panic := fun he => h.1 (by rw [he])

theorem CalmR.val {α : Type} {P : α → Prop} {x : α} (h : CalmR P (.ok x : Except Err α)) : P x := h.2 x rfl

theorem CalmR.mono {α : Type} {P Q : α → Prop} {r : Except Err α} (h : CalmR P r) (hPQ : ∀ x, P x → Q x) : CalmR Q r :=
  ⟨h.1, fun x hx => hPQ x (h.2 x hx)⟩

/-- The splitter does not panic; `m` is the number of links per node. -/
def DB.Calm (m : Nat) (db : DB) : Prop := db.maxlinks = m ∧ db.srcEnd ≠ some .panic ∧ db.recvdErr ≠ some .panic

variable {m : Nat} {db : DB}

theorem calm_prepareNext (h : db.Calm m) : db.prepareNext.Calm m := by
  unfold DB.prepareNext
  split
  · exact h
  · split
    · exact h
    · exact ⟨h.1, h.2.1, h.2.1⟩

theorem calm_done (h : db.Calm m) : db.done.2.Calm m := by
  unfold DB.done
  dsimp only
  split <;> exact calm_prepareNext h

theorem calm_next (h : db.Calm m) : CalmR (fun x => x.2.Calm m) db.next := by
  have h := calm_prepareNext h
  unfold DB.next
  dsimp only
  split
  next e he => exact .error (fun hp => h.2.2 (by rw [← hp]; exact he))
  · exact .ok h

theorem calm_add (h : db.Calm m) (b : Built) : CalmR (fun x => x.Calm m) (db.add b) := by
  unfold DB.add
  split
  · exact .ok h
  · exact .error (by simp)
  · exact .ok h

theorem calm_addChild (h : db.Calm m) (n : FSN) (b : Built) (s : UInt64) :
    CalmR (fun x => x.2.Calm m ∧ x.1.numChildren = n.numChildren + 1) (n.addChild b s db) := by
  unfold FSN.addChild
  dsimp only
  have := calm_add h b
  cases e : db.add b with
  | error e' => rw [e] at this; exact .error this.ne
  | ok db' =>
    rw [e] at this
    exact .ok ⟨this.val, by simp [FSN.numChildren, FSNode.numChildren, FSNode.addBlockSize, FSNode.updateFilesize]⟩

theorem marshal_ne_panic (d : Pb.Data) : d.marshal ≠ .error .panic := by
  unfold Pb.Data.marshal
  split <;> exact fun h => by cases h

theorem calm_commit (n : FSN) : CalmR (fun x => x.2.numChildren = n.numChildren) n.commit := by
  unfold FSN.commit
  cases e : n.file.getBytes with
  | error e' => exact .error (fun h => marshal_ne_panic n.file.format (by rw [← h]; exact e))
  | ok b => exact .ok rfl

theorem calm_newLeafNode (db : DB) (d : Option Bytes) (t : UInt32) : CalmR (fun _ => True) (db.newLeafNode d t) := by
  unfold DB.newLeafNode
  split
  · exact .error (by simp)
  · split
    · exact .ok trivial
    · have := calm_commit ((FSN.new db t).setFileData d)
      cases e : ((FSN.new db t).setFileData d).commit with
      | error e' => rw [e] at this; exact .error this.ne
      | ok x => exact .ok trivial

theorem calm_newLeafDataNode (h : db.Calm m) (t : UInt32) : CalmR (fun x => x.2.Calm m) (db.newLeafDataNode t) := by
  unfold DB.newLeafDataNode
  have := calm_next h
  cases e : db.next with
  | error e' => rw [e] at this; exact .error this.ne
  | ok x =>
    obtain ⟨d, db1⟩ := x
    rw [e] at this
    have hc := this.val
    dsimp only at hc ⊢
    have := calm_newLeafNode db1 d t
    cases e2 : db1.newLeafNode d t with
    | error e' => rw [e2] at this; exact .error this.ne
    | ok n =>
      refine .ok ?_
      unfold DB.processFileStore
      dsimp only
      split <;> exact hc

theorem calm_fillLayerLoop : ∀ (k : Nat) (n : FSN) (db : DB), db.Calm m →
    CalmR (fun x => x.2.Calm m ∧ x.1.numChildren ≤ n.numChildren + k) (DB.fillLayerLoop k n db) := by
  intro k
  induction k with
  | zero => intro n db h; exact .ok ⟨h, Nat.le_refl _⟩
  | succ k ih =>
    intro n db h
    unfold DB.fillLayerLoop
    have hd := calm_done h
    generalize db.done = q at hd ⊢
    obtain ⟨b, db1⟩ := q
    cases b with
    | true => exact .ok ⟨hd, by dsimp only; omega⟩
    | false =>
      dsimp only at hd ⊢
      have := calm_newLeafDataNode hd TRaw
      cases e : db1.newLeafDataNode TRaw with
      | error e' => rw [e] at this; exact .error this.ne
      | ok x =>
        obtain ⟨⟨c, s⟩, db2⟩ := x
        rw [e] at this
        have hd := this.val
        dsimp only at hd ⊢
        have := calm_addChild hd n c s
        cases e2 : n.addChild c s db2 with
        | error e' => rw [e2] at this; exact .error this.ne
        | ok x =>
          obtain ⟨n', db3⟩ := x
          rw [e2] at this
          obtain ⟨hd, hn⟩ := this.val
          dsimp only at hd hn ⊢
          exact (ih n' db3 hd).mono (fun x hx => ⟨hx.1, by omega⟩)

theorem calm_fillNodeLayer (h : db.Calm m) (n : FSN) :
    CalmR (fun x => x.2.Calm m ∧ (n.numChildren ≤ m → x.1.numChildren ≤ m)) (DB.fillNodeLayer n db) := by
  unfold DB.fillNodeLayer
  have := calm_fillLayerLoop (m := m) (db.maxlinks - n.numChildren) n db h
  rw [h.1] at this ⊢
  cases e : DB.fillLayerLoop (m - n.numChildren) n db with
  | error e' => rw [e] at this; exact .error this.ne
  | ok x =>
    obtain ⟨n', db'⟩ := x
    rw [e] at this
    obtain ⟨hd, hn⟩ := this.val
    dsimp only at hd hn ⊢
    have := calm_commit n'
    cases e2 : n'.commit with
    | error e' => rw [e2] at this; exact .error this.ne
    | ok x =>
      rw [e2] at this
      have := this.val
      exact .ok ⟨hd, fun hm => by dsimp only; omega⟩

namespace Trickle

theorem calm_repeatLoop {sub : DB → Except Err ((Node × UInt64) × DB)} (hs : ∀ db, db.Calm m → CalmR (fun x => x.2.Calm m) (sub db)) :
    ∀ (k : Nat) (n : FSN) (db : DB), db.Calm m → CalmR (fun x => x.2.Calm m) (repeatLoop sub k n db) := by
  intro k
  induction k with
  | zero => intro n db h; exact .ok h
  | succ k ih =>
    intro n db h
    unfold repeatLoop
    have hd := calm_done h
    generalize db.done = q at hd ⊢
    obtain ⟨b, db1⟩ := q
    cases b with
    | true => exact .ok hd
    | false =>
      dsimp only at hd ⊢
      have := hs db1 hd
      cases e : sub db1 with
      | error e' => rw [e] at this; exact .error this.ne
      | ok x =>
        obtain ⟨⟨c, s⟩, db2⟩ := x
        rw [e] at this
        have hd := this.val
        dsimp only at hd ⊢
        have := calm_addChild hd n ⟨c, none⟩ s
        cases e2 : n.addChild ⟨c, none⟩ s db2 with
        | error e' => rw [e2] at this; exact .error this.ne
        | ok x =>
          obtain ⟨n', db3⟩ := x
          rw [e2] at this
          exact ih n' db3 this.val.1

theorem calm_finish (h : db.Calm m) (n : FSN) : CalmR (fun x => x.2.Calm m) (finish n db) := by
  unfold finish
  have := calm_commit n
  cases e : n.commit with
  | error e' => rw [e] at this; exact .error this.ne
  | ok x => exact .ok h

theorem calm_layers : ∀ (k : Nat) (n : FSN) (db : DB), db.Calm m → CalmR (fun x => x.2.Calm m) (layers k n db) := by
  intro k
  induction k with
  | zero => intro n db h; exact .ok h
  | succ k ih =>
    intro n db h
    unfold layers
    have := ih n db h
    cases e : layers k n db with
    | error e' => rw [e] at this; exact .error this.ne
    | ok x =>
      obtain ⟨n', db1⟩ := x
      rw [e] at this
      have hd := this.val
      dsimp only at hd ⊢
      split
      · exact .ok hd
      · have hd := calm_done hd
        generalize db1.done = q at hd ⊢
        obtain ⟨b, db1⟩ := q
        cases b with
        | true => exact .ok hd
        | false =>
          refine calm_repeatLoop (fun db h => ?_) _ _ _ hd
          have := calm_fillNodeLayer h (FSN.new db TFile)
          cases e : DB.fillNodeLayer (FSN.new db TFile) db with
          | error e' => rw [e] at this; exact .error this.ne
          | ok x =>
            obtain ⟨n', db1⟩ := x
            rw [e] at this
            have hd := this.val.1
            dsimp only at hd ⊢
            have := ih n' db1 hd
            cases e : layers k n' db1 with
            | error e' => rw [e] at this; exact .error this.ne
            | ok x =>
              obtain ⟨n', db1⟩ := x
              rw [e] at this
              exact calm_finish this.val n'

theorem calm_subTrickle (i : Nat) (h : db.Calm m) : CalmR (fun x => x.2.Calm m) (subTrickle i db) := by
  unfold subTrickle fillTrickle
  have := calm_fillNodeLayer h (FSN.new db TFile)
  cases e : DB.fillNodeLayer (FSN.new db TFile) db with
  | error e' => rw [e] at this; exact .error this.ne
  | ok x =>
    obtain ⟨n', db1⟩ := x
    rw [e] at this
    have hd := this.val.1
    dsimp only at hd ⊢
    have := calm_layers (m := m) i n' db1 hd
    cases e : layers i n' db1 with
    | error e' => rw [e] at this; exact .error this.ne
    | ok x =>
      obtain ⟨n', db1⟩ := x
      rw [e] at this
      exact calm_finish this.val n'

theorem calm_boundedGrow : ∀ (k i : Nat) (n : FSN) (db : DB), db.Calm m → CalmR (fun x => x.2.Calm m) (boundedGrow k i n db) := by
  intro k
  induction k with
  | zero => intro i n db h; exact .ok h
  | succ k ih =>
    intro i n db h
    unfold boundedGrow
    have hd := calm_done h
    generalize db.done = q at hd ⊢
    obtain ⟨b, db1⟩ := q
    cases b with
    | true => exact .ok hd
    | false =>
      dsimp only at hd ⊢
      have := calm_repeatLoop (m := m) (fun _ h => calm_subTrickle i h) depthRepeat n db1 hd
      cases e : repeatLoop (subTrickle i) depthRepeat n db1 with
      | error e' => rw [e] at this; exact .error this.ne
      | ok x =>
        obtain ⟨n', db2⟩ := x
        rw [e] at this
        exact ih _ _ _ this.val

theorem calm_growLoop : ∀ (k i : Nat) (n : FSN) (db : DB), db.Calm m → CalmR (fun x => x.2.Calm m) (growLoop k i n db) := by
  intro k
  induction k with
  | zero =>
    intro i n db h
    unfold growLoop
    have hd := calm_done h
    generalize db.done = q at hd ⊢
    obtain ⟨b, db1⟩ := q
    cases b with
    | true => exact .ok hd
    | false => exact .error (by simp)
  | succ k ih =>
    intro i n db h
    unfold growLoop
    have hd := calm_done h
    generalize db.done = q at hd ⊢
    obtain ⟨b, db1⟩ := q
    cases b with
    | true => exact .ok hd
    | false =>
      dsimp only at hd ⊢
      have := calm_repeatLoop (m := m) (fun _ h => calm_subTrickle i h) depthRepeat n db1 hd
      cases e : repeatLoop (subTrickle i) depthRepeat n db1 with
      | error e' => rw [e] at this; exact .error this.ne
      | ok x =>
        obtain ⟨n', db2⟩ := x
        rw [e] at this
        exact ih _ _ _ this.val

/-- The same for a node being worked on. -/
def FCov (n : FSN) : Prop := n.numChildren ≤ n.links.length ∧ ∀ l ∈ n.links, Covered l.target

theorem FCov.of {d : Bytes} {ls : List Link} {b : Builder} {f : FSN} (h : Covered (.proto d ls b)) (hf : FSN.fromDag d ls b = .ok f) : FCov f := by
  unfold FSN.fromDag FSNode.fromBytes at hf
  cases e : Pb.Data.unmarshal d with
  | error e' => rw [e] at hf; cases hf
  | ok p =>
    rw [e] at hf
    cases hf
    exact ⟨h d ls b (.refl _) p e, fun l hl d' ls' b' hr => h d' ls' b' (.step (n := .proto d ls b) hl hr)⟩

theorem fromDag_ne_panic (d : Bytes) (ls : List Link) (b : Builder) : FSN.fromDag d ls b ≠ .error .panic := by
  intro h
  unfold FSN.fromDag at h
  cases e : FSNode.fromBytes d with
  | error e' => rw [e] at h; cases h; exact (File.fromBytes_sane e).1 rfl
  | ok p => rw [e] at h; cases h

theorem calm_appendFillLastChild {rec : FSN → DB → Int → Except Err ((FSN × UInt64) × DB)}
    (hrec : ∀ f db D, FCov f → db.Calm m → CalmR (fun x => x.2.Calm m) (rec f db D))
    {fsn : FSN} (depth rep : Nat) (h : db.Calm m) (hf : m < fsn.numChildren → FCov fsn) :
    CalmR (fun x => x.2.Calm m) (appendFillLastChild rec fsn depth rep db) := by
  unfold appendFillLastChild
  rw [h.1]
  split
  · exact .ok h
  next hn =>
    obtain ⟨h1, h2⟩ := hf (by omega)
    have hlt : fsn.numChildren - 1 < fsn.links.length := by omega
    dsimp only
    have hg : CalmR FCov (fsn.getChild (fsn.numChildren - 1) db.canGet) := by
      unfold FSN.getChild
      rw [List.getElem?_eq_getElem hlt]
      dsimp only
      split
      · split
        next d ls b e =>
          refine ⟨fromDag_ne_panic d ls b, fun x hx => FCov.of ?_ hx⟩
          rw [← e]
          exact h2 _ (List.getElem_mem hlt)
        · exact .error (by simp)
      · exact .error (by simp)
    cases e : fsn.getChild (fsn.numChildren - 1) db.canGet with
    | error e' => rw [e] at hg; exact .error hg.ne
    | ok lc =>
      rw [e] at hg
      have hr := hrec lc db ((depth : Int) - 1) hg.val h
      dsimp only
      cases e2 : rec lc db ((depth : Int) - 1) with
      | error e' => rw [e2] at hr; exact .error hr.ne
      | ok x =>
        obtain ⟨⟨nc, ns⟩, db1⟩ := x
        rw [e2] at hr
        have hd := hr.val
        dsimp only at hd ⊢
        have hrm : CalmR (fun _ => True) (fsn.removeChild (fsn.numChildren - 1)) := by
          unfold FSN.removeChild FSNode.removeBlockSize
          have hi : fsn.numChildren - 1 < fsn.file.format.blocksizes.length := by
            have : fsn.numChildren = fsn.file.format.blocksizes.length := rfl
            omega
          rw [List.getElem?_eq_getElem hi]
          dsimp only
          rw [if_pos hlt]
          exact .ok trivial
        cases e3 : fsn.removeChild (fsn.numChildren - 1) with
        | error e' => rw [e3] at hrm; exact .error hrm.ne
        | ok f2 =>
          dsimp only
          have hc := calm_commit nc
          cases e4 : nc.commit with
          | error e' => rw [e4] at hc; exact .error hc.ne
          | ok x =>
            obtain ⟨fn, nc'⟩ := x
            dsimp only
            have ha := calm_addChild hd f2 ⟨fn, none⟩ ns
            cases e5 : f2.addChild ⟨fn, none⟩ ns db1 with
            | error e' => rw [e5] at ha; exact .error ha.ne
            | ok x =>
              obtain ⟨f3, db2⟩ := x
              rw [e5] at ha
              have hd := ha.val.1
              dsimp only at hd ⊢
              split
              · exact calm_repeatLoop (fun _ h => calm_subTrickle depth h) _ _ _ hd
              · exact .ok hd

theorem depthInfo_zero {f : FSN} {m : Nat} (h : (depthInfo f m).1 = 0) : f.numChildren < m := by
  unfold depthInfo at h
  dsimp only at h
  split at h
  · assumption
  · simp at h

theorem calm_appendDirect {fsn : FSN} (h : db.Calm m) (hf : FCov fsn) :
    CalmR (fun x => x.2.Calm m ∧ (m < x.1.1.numChildren → FCov x.1.1)) (appendDirect fsn db) := by
  unfold appendDirect
  rw [h.1]
  split
  next h0 =>
    have := calm_fillNodeLayer h fsn
    cases e : DB.fillNodeLayer fsn db with
    | error e' => rw [e] at this; exact .error this.ne
    | ok x =>
      obtain ⟨f2, db1⟩ := x
      rw [e] at this
      obtain ⟨hd, hn⟩ := this.val
      dsimp only at hd hn ⊢
      exact .ok ⟨hd, fun h => absurd h (by have := hn (Nat.le_of_lt (depthInfo_zero h0)); dsimp only; omega)⟩
  · exact .ok ⟨h, fun _ => hf⟩

theorem calm_appendRec : ∀ (k : Nat) (fsn : FSN) (db : DB) (D : Int), FCov fsn → db.Calm m → CalmR (fun x => x.2.Calm m) (appendRec k fsn db D) := by
  intro k
  induction k with
  | zero => intro fsn db D _ _; exact .error (by simp)
  | succ k ih =>
    intro fsn db D hf h
    unfold appendRec
    split
    · exact .ok h
    · have hd := calm_done h
      generalize db.done = q at hd ⊢
      obtain ⟨b, db1⟩ := q
      cases b with
      | true => exact .ok hd
      | false =>
        dsimp only at hd ⊢
        have := calm_appendDirect hd hf
        cases e : appendDirect fsn db1 with
        | error e' => rw [e] at this; exact .error this.ne
        | ok x =>
          obtain ⟨⟨f2, depth⟩, db2⟩ := x
          rw [e] at this
          obtain ⟨hd2, hf2⟩ := this.val
          dsimp only at hd2 hf2 ⊢
          split
          · exact .ok hd2
          · have := calm_appendFillLastChild (rec := appendRec k) ih depth (depthInfo fsn db1.maxlinks).2 hd2 hf2
            cases e2 : appendFillLastChild (appendRec k) f2 depth (depthInfo fsn db1.maxlinks).2 db2 with
            | error e' => rw [e2] at this; exact .error this.ne
            | ok x =>
              obtain ⟨f3, db3⟩ := x
              rw [e2] at this
              have hd3 := calm_done this.val
              dsimp only at hd3 ⊢
              generalize (if db3.done.1 = true then depth else depth + 1) = dep
              have := calm_boundedGrow (m := m) (D - dep).toNat dep f3 db3.done.2 hd3
              cases e3 : boundedGrow (D - dep).toNat dep f3 db3.done.2 with
              | error e' => rw [e3] at this; exact .error this.ne
              | ok x =>
                rw [e3] at this
                exact .ok this.val

theorem calm_appendRest (fuel k : Nat) {fsn : FSN} (depth rep : Nat) (h : db.Calm m) (hf : m < fsn.numChildren → FCov fsn) :
    CalmR (fun _ => True) (appendRest fuel k fsn depth rep db) := by
  unfold appendRest
  have := calm_appendFillLastChild (rec := appendRec k) (calm_appendRec k) (depth - 1) rep h hf
  cases e2 : appendFillLastChild (appendRec k) fsn (depth - 1) rep db with
  | error e' => rw [e2] at this; exact .error this.ne
  | ok x =>
    obtain ⟨f3, db3⟩ := x
    rw [e2] at this
    have hd3 := calm_done this.val
    dsimp only at hd3 ⊢
    generalize (if db3.done.1 = true then depth else depth + 1) = dep
    have := calm_growLoop (m := m) fuel dep f3 db3.done.2 hd3
    cases e3 : growLoop fuel dep f3 db3.done.2 with
    | error e' => rw [e3] at this; exact .error this.ne
    | ok x =>
      obtain ⟨f4, db4⟩ := x
      dsimp only
      have := calm_commit f4
      cases e4 : f4.commit with
      | error e' => rw [e4] at this; exact .error this.ne
      | ok x => exact .ok trivial

theorem append_calm (fuel k : Nat) {base : Node} (h : db.Calm m) (hb : Covered base) : append fuel k base db ≠ .error .panic := by
  suffices CalmR (fun _ => True) (append fuel k base db) from this.1
  unfold append
  split
  next d ls b =>
    cases e : FSN.fromDag d ls b with
    | error e' => exact .error (fun he => fromDag_ne_panic d ls b (by rw [e, he]))
    | ok fsn =>
      have hf := FCov.of hb e
      dsimp only
      rw [h.1]
      split
      next h0 =>
        have := calm_fillNodeLayer h fsn
        cases e2 : DB.fillNodeLayer fsn db with
        | error e' => rw [e2] at this; exact .error this.ne
        | ok x =>
          obtain ⟨f2, db1⟩ := x
          rw [e2] at this
          obtain ⟨hd, hn⟩ := this.val
          have hd := calm_done hd
          dsimp only at hd hn ⊢
          generalize db1.done = q at hd ⊢
          obtain ⟨b, db2⟩ := q
          cases b with
          | true => exact .ok trivial
          | false => exact calm_appendRest fuel k _ _ hd (fun h => absurd h (by have := hn (Nat.le_of_lt (depthInfo_zero h0)); omega))
      · exact calm_appendRest fuel k _ _ h (fun _ => hf)
  · exact .error (by simp)

mutual
theorem verifyRec_calm {p : VerifyParams} (hp : p.layerRepeat ≠ 0) : ∀ (n : Node) (D : Int), verifyRec p n D ≠ .error .panic
  | .other _, D => by
    unfold verifyRec
    split
    · split
      · exact fun h => by cases h
      · exact fun h => by cases h
    · split <;> exact fun h => by cases h
  | .raw _ _, D => by
    unfold verifyRec
    split
    · split
      · dsimp only
        split
        · exact fun h => by cases h
        · split <;> exact fun h => by cases h
      · exact fun h => by cases h
    · split <;> exact fun h => by cases h
  | .proto d ls b, D => by
    have := verifyLinks_calm hp ls 0 D
    have hx : ∀ d, FSNode.fromBytes d ≠ .error .panic := fun d h => (File.fromBytes_sane h).1 rfl
    unfold verifyRec
    repeat' split
    all_goals first
      | exact this
      | (intro h; cases h; done)
      | (intro h; cases h; exact hx _ (by assumption))
      | (intro h; rename_i heq _ _ _ _ _; cases heq; exact this h)
      | (intro h; rename_i heq _ _ _ _ _ _; cases heq; exact this h)
theorem verifyLinks_calm {p : VerifyParams} (hp : p.layerRepeat ≠ 0) : ∀ (ls : List Link) (i : Nat) (D : Int), verifyLinks p ls i D ≠ .error .panic
  | [], _, _ => fun h => by cases h
  | .mk _ _ child :: ls, i, D => by
    have h1 := verifyRec_calm hp child
    have h2 := verifyLinks_calm hp ls (i + 1) D
    unfold verifyLinks
    split
    · exact fun h => by cases h
    · split
      · cases e : verifyRec p child 0 with
        | error e' => exact fun h => h1 0 (by rw [e]; cases h; rfl)
        | ok u => exact h2
      · dsimp only
        split
        · exact fun h => by cases h
        · cases e : verifyRec p child (((i - p.direct) / p.layerRepeat + 1 : Nat) : Int) with
          | error e' => exact fun h => h1 _ (by rw [e]; cases h; rfl)
          | ok u => exact h2
end

end Trickle
end Unixfs.Import
