import Verif.Mod.Crash

/-!
# A file is completely stored after calls that reported no error (C62)

`Read` may report EOF, so that a failure of `Sync` must be told from the end of the file: no function
below fails with EOF unless the splitter does.

The definitions in this file belong to proofs; they model no code.
-/

namespace Unixfs

namespace Pb

theorem skipField_ne {w : Nat} {b : Bytes} {e : Err} (h : skipField w b = .error e) : e ≠ .eof := by
  unfold skipField at h
  repeat' split at h
  all_goals first | cases h; simp | cases h

theorem Data.step_ne {m : Data} {x : Nat} {b : Bytes} {e : Err} (h : m.step x b = .error e) : e ≠ .eof := by
  have nv : ∀ (g : Nat → Data), ((do let (v, r) ← needVarint b; return (g v, r)) : Except Err (Data × Bytes)) = .error e → e ≠ .eof := by
    intro g hg
    rw [needVarint] at hg
    cases hd : decVarint b with
    | none => rw [hd] at hg; simp only [bind, Except.bind, Except.error.injEq] at hg; rw [← hg]; simp
    | some q => rw [hd] at hg; simp [bind, Except.bind, pure, Except.pure] at hg
  unfold Data.step at h
  simp only at h
  split at h
  · cases h; simp
  split at h
  · exact nv (fun v => { m with typ := some (UInt32.ofNat v) }) h
  split at h
  · split at h
    · cases h; simp
    · cases h
  split at h
  · exact nv (fun v => { m with filesize := some (UInt64.ofNat v) }) h
  split at h
  · exact nv (fun v => { m with blocksizes := m.blocksizes ++ [UInt64.ofNat v] }) h
  split at h
  · split at h
    · cases h; simp
    · split at h
      · cases h; simp
      · cases h
  split at h
  · exact nv (fun v => { m with hashType := some (UInt64.ofNat v) }) h
  split at h
  · exact nv (fun v => { m with fanout := some (UInt64.ofNat v) }) h
  · cases hs : skipField (x % 8) b with
    | error e' => rw [hs] at h; simp only [bind, Except.bind, Except.error.injEq] at h; rw [← h]; exact skipField_ne hs
    | ok s => rw [hs] at h; simp [bind, Except.bind, pure, Except.pure] at h

theorem Data.loop_ne (f : Nat) : ∀ (m : Data) (b : Bytes) (e : Err), Data.loop f m b = .error e → e ≠ .eof := by
  induction f with
  | zero => intro m b e h; cases b <;> simp only [Data.loop] at h <;> cases h; simp
  | succ f ih =>
    intro m b e h
    cases b with
    | nil => simp [Data.loop] at h
    | cons x xs =>
      simp only [Data.loop] at h
      split at h
      · cases h; simp
      · split at h
        · cases h; rename_i hs; exact Data.step_ne hs
        · exact ih _ _ _ h

theorem Data.unmarshal_ne {b : Bytes} {e : Err} (h : Data.unmarshal b = .error e) : e ≠ .eof := by
  unfold Data.unmarshal at h
  split at h
  · cases h; rename_i hl; exact Data.loop_ne _ _ _ _ hl
  · split at h
    · cases h; simp
    · cases h

end Pb

theorem fromBytes_ne {b : Bytes} {e : Err} (h : FSNode.fromBytes b = .error e) : e ≠ .eof := by
  rw [FSNode.fromBytes] at h
  split at h
  · cases h; rename_i h; exact Pb.Data.unmarshal_ne h
  · cases h

theorem getBytes_ne {n : FSNode} {e : Err} (h : n.getBytes = .error e) : e ≠ .eof := by
  unfold FSNode.getBytes Pb.Data.marshal at h
  split at h
  · cases h; simp
  · cases h

namespace Import

/-- The splitter does not report EOF as an error. -/
def NoEof (db : DB) : Prop := db.srcEnd ≠ some .eof ∧ db.recvdErr ≠ some .eof

/-- Not an error that looks like EOF. -/
def Q {α : Type} : Except Err (α × DB) → Prop
  | .error e => e ≠ .eof
  | .ok (_, db) => NoEof db

theorem Q.err {α : Type} {e : Err} {r : Except Err (α × DB)} (h : Q r) (he : r = .error e) : e ≠ .eof := by subst he; exact h
theorem Q.ok {α : Type} {a : α} {db : DB} {r : Except Err (α × DB)} (h : Q r) (he : r = .ok (a, db)) : NoEof db := by subst he; exact h

theorem prepareNext_q {db : DB} (h : NoEof db) : NoEof db.prepareNext := by
  unfold DB.prepareNext
  split
  · exact h
  · split
    · exact h
    · exact ⟨h.1, h.1⟩

theorem done_q {db db' : DB} {b : Bool} (h : NoEof db) (he : db.done = (b, db')) : NoEof db' := by
  unfold DB.done at he
  simp only at he
  split at he <;> (cases he; exact prepareNext_q h)

theorem next_q {db : DB} (h : NoEof db) : Q db.next := by
  have := prepareNext_q h
  unfold DB.next
  simp only
  split
  · next he => exact fun h => this.2 (by rw [he, h])
  · exact this

theorem add_q {db : DB} (h : NoEof db) (b : Built) : (∀ e, db.add b = .error e → e ≠ .eof) ∧ ∀ db', db.add b = .ok db' → NoEof db' := by
  unfold DB.add
  split
  · exact ⟨by simp, fun db' he => by cases he; exact h⟩
  · exact ⟨fun e he => by cases he; simp, by simp⟩
  · exact ⟨by simp, fun db' he => by cases he; exact h⟩

theorem addChild_q {n : FSN} {c : Built} {s : UInt64} {db : DB} (h : NoEof db) : Q (n.addChild c s db) := by
  unfold FSN.addChild
  simp only
  split
  · next he => exact (add_q h c).1 _ he
  · next he => exact (add_q h c).2 _ he

theorem commit_ne {n : FSN} {e : Err} (h : n.commit = .error e) : e ≠ .eof := by
  unfold FSN.commit at h
  split at h
  · next he => cases h; exact getBytes_ne he
  · cases h

theorem newLeafNode_ne {db : DB} {d : Option Bytes} {t : UInt32} {e : Err} (h : db.newLeafNode d t = .error e) : e ≠ .eof := by
  unfold DB.newLeafNode at h
  split at h
  · cases h; simp
  split at h
  · cases h
  split at h
  · next he => cases h; exact commit_ne he
  · cases h

theorem newLeafDataNode_q {db : DB} {t : UInt32} (h : NoEof db) : Q (db.newLeafDataNode t) := by
  unfold DB.newLeafDataNode
  have hn := next_q h
  split
  · next he => exact hn.err he
  · next he =>
    have h1 := hn.ok he
    simp only
    split
    · next he => exact newLeafNode_ne he
    · show NoEof _
      unfold DB.processFileStore
      split <;> exact h1

theorem fillLayerLoop_q : ∀ (k : Nat) (node : FSN) (db : DB), NoEof db → Q (DB.fillLayerLoop k node db)
  | 0, _, _, h => h
  | k + 1, node, db, h => by
    unfold DB.fillLayerLoop
    split
    · next he => exact done_q h he
    · next he =>
      have h1 := done_q h he
      have hn := newLeafDataNode_q (t := TRaw) h1
      split
      · next he => exact hn.err he
      · next c s _ he =>
        have h2 := hn.ok he
        have hc := addChild_q (n := node) (c := c) (s := s) h2
        split
        · next he => exact hc.err he
        · next he => exact fillLayerLoop_q k _ _ (hc.ok he)

theorem fillNodeLayer_q {node : FSN} {db : DB} (h : NoEof db) : Q (DB.fillNodeLayer node db) := by
  unfold DB.fillNodeLayer
  have hn := fillLayerLoop_q (db.maxlinks - node.numChildren) node db h
  split
  · next he => exact hn.err he
  · next he =>
    split
    · next he => exact commit_ne he
    · exact hn.ok he

namespace Trickle

theorem repeatLoop_q {sub : DB → Except Err ((Node × UInt64) × DB)} (hs : ∀ db, NoEof db → Q (sub db)) : ∀ (k : Nat) (node : FSN) (db : DB), NoEof db → Q (repeatLoop sub k node db)
  | 0, _, _, h => h
  | k + 1, node, db, h => by
    unfold repeatLoop
    split
    · next he => exact done_q h he
    · next he =>
      have h1 := done_q h he
      have hn := hs _ h1
      split
      · next he => exact hn.err he
      · next c s _ he =>
        have hc := addChild_q (n := node) (c := ⟨c, none⟩) (s := s) (hn.ok he)
        split
        · next he => exact hc.err he
        · next he => exact repeatLoop_q hs k _ _ (hc.ok he)

theorem finish_q {node : FSN} {db : DB} (h : NoEof db) : Q (finish node db) := by
  unfold finish
  split
  · next he => exact commit_ne he
  · exact h

theorem layers_q : ∀ (d : Nat) (node : FSN) (db : DB), NoEof db → Q (layers d node db)
  | 0, _, _, h => h
  | d + 1, node, db, h => by
    unfold layers
    have hl := layers_q d node db h
    split
    · next he => exact hl.err he
    · next he =>
      have h1 := hl.ok he
      split
      · exact h1
      · split
        · next he => exact done_q h1 he
        · next he =>
          refine repeatLoop_q ?_ _ _ _ (done_q h1 he)
          intro db h
          have hf := fillNodeLayer_q (node := FSN.new db TFile) h
          split
          · next he => exact hf.err he
          · next sub _ he =>
            have h2 := layers_q d sub _ (hf.ok he)
            split
            · next he => exact h2.err he
            · next he => exact finish_q (h2.ok he)

theorem subTrickle_q (i : Nat) {db : DB} (h : NoEof db) : Q (subTrickle i db) := by
  unfold subTrickle fillTrickle
  have hf := fillNodeLayer_q (node := FSN.new db TFile) h
  split
  · next he => exact hf.err he
  · next sub _ he =>
    have h2 := layers_q i sub _ (hf.ok he)
    split
    · next he => exact h2.err he
    · next he => exact finish_q (h2.ok he)

theorem growLoop_q : ∀ (fuel i : Nat) (node : FSN) (db : DB), NoEof db → Q (growLoop fuel i node db)
  | 0, _, _, db, h => by
    unfold growLoop
    split
    · next he => exact done_q h he
    · show Err.outOfFuel ≠ _; simp
  | fuel + 1, i, node, db, h => by
    unfold growLoop
    split
    · next he => exact done_q h he
    · next he =>
      have hr := repeatLoop_q (fun _ => subTrickle_q i) depthRepeat node _ (done_q h he)
      split
      · next he => exact hr.err he
      · next he => exact growLoop_q fuel _ _ _ (hr.ok he)

theorem boundedGrow_q : ∀ (k i : Nat) (node : FSN) (db : DB), NoEof db → Q (boundedGrow k i node db)
  | 0, _, _, _, h => h
  | k + 1, i, node, db, h => by
    unfold boundedGrow
    split
    · next he => exact done_q h he
    · next he =>
      have hr := repeatLoop_q (fun _ => subTrickle_q i) depthRepeat node _ (done_q h he)
      split
      · next he => exact hr.err he
      · next he => exact boundedGrow_q k _ _ _ (hr.ok he)

theorem getChild_ne {n : FSN} {i : Nat} {g : Node → Bool} {e : Err} (h : n.getChild i g = .error e) : e ≠ .eof := by
  unfold FSN.getChild at h
  split at h
  · cases h; simp
  split at h
  · split at h
    · unfold FSN.fromDag at h
      split at h
      · next he => cases h; exact fromBytes_ne he
      · cases h
    · cases h; simp
  · cases h; simp

theorem removeChild_ne {n : FSN} {i : Nat} {e : Err} (h : n.removeChild i = .error e) : e ≠ .eof := by
  unfold FSN.removeChild at h
  split at h
  · next he =>
    cases h
    unfold FSNode.removeBlockSize at he
    split at he
    · cases he; simp
    · cases he
  · split at h
    · cases h
    · cases h; simp

theorem fillLast_q {rec : FSN → DB → Int → Except Err ((FSN × UInt64) × DB)} (hrec : ∀ f db m, NoEof db → Q (rec f db m)) {fsn : FSN} {depth rep : Nat} {db : DB}
    (h : NoEof db) : Q (appendFillLastChild rec fsn depth rep db) := by
  unfold appendFillLastChild
  split
  · exact h
  simp only
  split
  · next he => exact getChild_ne he
  · next lc _ =>
    have hr := hrec lc db ((depth : Int) - 1) h
    split
    · next he => exact hr.err he
    · next he =>
      have h1 := hr.ok he
      split
      · next he => exact removeChild_ne he
      · next fsn' _ =>
        split
        · next he => exact commit_ne he
        · next fn _ _ =>
          next sz _ _ _ _ _ _ =>
          split
          · next he => exact (addChild_q h1).err he
          · next he =>
            have h2 := (addChild_q h1).ok he
            split
            · exact repeatLoop_q (fun _ => subTrickle_q depth) _ _ _ h2
            · exact h2

theorem appendDirect_q {fsn : FSN} {db : DB} (h : NoEof db) : Q (appendDirect fsn db) := by
  unfold appendDirect
  split
  · have := fillNodeLayer_q (node := fsn) h
    split
    · next he => exact this.err he
    · next he => exact this.ok he
  · exact h

theorem appendRec_q : ∀ (fuel : Nat) (fsn : FSN) (db : DB) (m : Int), NoEof db → Q (appendRec fuel fsn db m)
  | 0, _, _, _, _ => by unfold appendRec; show Err.outOfFuel ≠ _; simp
  | fuel + 1, fsn, db, m, h => by
    unfold appendRec
    split
    · exact h
    split
    · next he => exact done_q h he
    · next he =>
      have h1 := done_q h he
      simp only
      have hd := appendDirect_q (fsn := fsn) h1
      split
      · next he => exact hd.err he
      · next f depth _ he =>
        have h2 := hd.ok he
        split
        · exact h2
        · split
          · next he => exact (fillLast_q (fun f db m => appendRec_q fuel f db m) h2).err he
          · next he =>
            have h3 := (fillLast_q (fun f db m => appendRec_q fuel f db m) h2).ok he
            have h4 := done_q h3 (b := _) rfl
            split
            · next he => exact (boundedGrow_q _ _ _ _ h4).err he
            · next he => exact (boundedGrow_q _ _ _ _ h4).ok he

theorem appendRest_q {fuel hh : Nat} {fsn : FSN} {depth rep : Nat} {db : DB} (h : NoEof db) : Q (appendRest fuel hh fsn depth rep db) := by
  unfold appendRest
  split
  · next he => exact (fillLast_q (appendRec_q hh) h).err he
  · next he =>
    have h3 := (fillLast_q (appendRec_q hh) h).ok he
    have h4 := done_q h3 (b := _) rfl
    simp only
    split
    · next he => exact (growLoop_q _ _ _ _ h4).err he
    · next he =>
      have h5 := (growLoop_q _ _ _ _ h4).ok he
      split
      · next he => exact commit_ne he
      · exact h5

theorem append_q {fuel hh : Nat} {base : Node} {db : DB} (h : NoEof db) : Q (append fuel hh base db) := by
  unfold append
  split
  · split
    · next he =>
      unfold FSN.fromDag at he
      split at he
      · next he' => cases he; exact fromBytes_ne he'
      · cases he
    · next fsn _ =>
      simp only
      split
      · have hf := fillNodeLayer_q (node := fsn) h
        split
        · next he => exact hf.err he
        · next he =>
          have h1 := hf.ok he
          split
          · next he => exact done_q h1 he
          · next he => exact appendRest_q (done_q h1 he)
      · exact appendRest_q h
  · show Err.notProtobuf ≠ _; simp

end Trickle
end Import

namespace Mod
open Unixfs.Spec Unixfs.Import

variable {env : Env} {S : Node → Prop}

theorem fileSize_ne {n : Node} {e : Err} (h : fileSize n = .error e) : e ≠ .eof := by
  unfold fileSize at h
  split at h
  · split at h
    · next he => cases h; exact fromBytes_ne he
    · cases h
  · cases h
  · cases h; simp [notUnixfs]

theorem new_ne {p : Params} {path : Option Bytes} {chunks : List Bytes} {fin : Option Err} {e : Err} (h : p.new path chunks fin = .error e) : e ≠ .eof := by
  unfold Params.new at h
  dsimp only at h
  generalize (if p.noCopy = true then path.getD [] else []) = q at h
  split at h
  · injection h with h; subst h; simp
  · cases h

theorem new_noEof {p : Params} {path : Option Bytes} {chunks : List Bytes} {fin : Option Err} {db : DB} (h : p.new path chunks fin = .ok db) (hf : fin ≠ some .eof) :
    NoEof db := by
  unfold Params.new at h
  dsimp only at h
  generalize (if p.noCopy = true then path.getD [] else []) = q at h
  split at h
  · cases h
  · injection h with h; subst h; exact ⟨hf, by simp⟩

theorem appendData_ne {dm : DM} {chunks : List Bytes} {fin : Option Err} {e : Err} {svc : Svc} (h : dm.appendData env chunks fin = (.error e, svc)) (hf : fin ≠ some .eof) :
    e ≠ .eof := by
  unfold DM.appendData at h
  split at h
  · cases h; simp [notUnixfs]
  · split at h
    · next he =>
      cases h
      exact new_ne he
    · next db he =>
      have hdb : NoEof db := new_noEof he hf
      split at h
      · next hq => cases h; exact (Trickle.append_q (db := { { db with addBudget := env.budget dm.svc.tick } with canGet := env.get dm.svc.tick }) hdb).err hq
      · cases h

theorem svcAdd_ne {s s' : Svc} {n : Node} {e : Err} (h : s.add env n = (.error e, s')) : e ≠ .eof := by
  unfold Svc.add at h
  split at h <;> cases h
  simp

theorem svcGet_ne {s s' : Svc} {n : Node} {e : Err} (h : s.get env n = (.error e, s')) : e ≠ .eof := by
  unfold Svc.get at h
  split at h <;> cases h
  simp

mutual
theorem modifyDag_ne : ∀ (n : Node) (off : UInt64) (buf : Bytes) (svc : Svc) (e : Err) (x : Node) (rest : Bytes) (svc' : Svc),
    modifyDag env n off buf svc = (.error e, x, rest, svc') → e ≠ .eof
  | .proto d [] b, off, buf, svc, e, x, rest, svc', h => by
    unfold modifyDag at h
    split at h
    · next he => cases h; exact fromBytes_ne he
    split at h
    · cases h; simp
    simp only at h
    split at h
    · next he => cases h; exact getBytes_ne he
    split at h
    · next he => cases h; exact svcAdd_ne he
    · cases h
  | .raw d b, off, buf, svc, e, x, rest, svc', h => by
    unfold modifyDag at h
    split at h
    · cases h; simp
    simp only at h
    split at h
    · next he => cases h; exact svcAdd_ne he
    · cases h
  | .other d, off, buf, svc, e, x, rest, svc', h => by
    unfold modifyDag at h
    cases h; simp [notUnixfs]
  | .proto d (l :: ls) b, off, buf, svc, e, x, rest, svc', h => by
    unfold modifyDag at h
    split at h
    · next he => cases h; exact fromBytes_ne he
    split at h
    · next he => cases h; exact modifyLinks_ne _ _ _ _ _ _ _ _ _ _ he
    split at h
    · next he => cases h; exact svcAdd_ne he
    · cases h
theorem modifyLinks_ne : ∀ (bss : List UInt64) (ls : List Link) (cur off : UInt64) (buf : Bytes) (svc : Svc) (e : Err) (ls' : List Link) (rest : Bytes) (svc' : Svc),
    modifyLinks env bss ls cur off buf svc = (some e, ls', rest, svc') → e ≠ .eof
  | [], ls, cur, off, buf, svc, e, ls', rest, svc', h => by
    unfold modifyLinks at h; cases h
  | bs :: bss, [], cur, off, buf, svc, e, ls', rest, svc', h => by
    unfold modifyLinks at h
    split at h <;> cases h
    simp
  | bs :: bss, .mk nm sz child :: ls, cur, off, buf, svc, e, ls', rest, svc', h => by
    unfold modifyLinks at h
    split at h
    · split at h
      · next he => cases h; exact svcGet_ne he
      split at h
      · next he => cases h; exact modifyDag_ne child _ _ _ _ _ _ _ he
      split at h
      · cases h
      · split at h
        next he => cases h; exact modifyLinks_ne bss ls _ _ _ _ _ _ _ _ he
    · split at h
      next he => cases h; exact modifyLinks_ne bss ls _ _ _ _ _ _ _ _ he
end

/-- The splitter does not report EOF as an error. -/
def NoSplitEof (env : Env) : Prop := ∀ b, (env.split b).2 ≠ some .eof

theorem expandSparse_ne {dm dm' : DM} {size : Int} {e : Err} (h : dm.expandSparse env size = (.error e, dm')) : e ≠ .eof := by
  unfold DM.expandSparse at h
  split at h
  · next he => cases h; exact appendData_ne he (by simp)
  · split at h
    next he => cases h; exact svcAdd_ne he

theorem sync_ne (hsp : NoSplitEof env) {dm dm' : DM} {e : Err} (h : dm.sync env = (.error e, dm')) : e ≠ .eof := by
  have tail : ∀ (dm : DM) k, dm.syncModify env k = (.error e, dm') → e ≠ .eof := by
    intro dm k h
    unfold DM.syncModify at h
    split at h
    · next he => cases h; exact modifyDag_ne _ _ _ _ _ _ _ _ he
    split at h
    · next he => cases h; exact svcGet_ne he
    unfold DM.syncTail at h
    simp only at h
    split at h
    · cases h
    split at h
    · next he => cases h; exact appendData_ne he (hsp _)
    split at h
    · next he => cases h; exact svcAdd_ne he
    · cases h
  unfold DM.sync at h
  split at h
  · cases h
  simp only at h
  split at h
  · next he => cases h; exact fileSize_ne he
  split at h
  · split at h
    · next he => cases h; exact expandSparse_ne he
    · exact tail _ _ h
  · exact tail _ _ h

/-- The current node is stored, or was there. -/
structure MStored (S : Node → Prop) (dm : DM) : Prop where
  first : ChildrenFirst S dm.svc.stored
  cur : dm.cur ∈ dm.svc.stored ∨ S dm.cur

theorem MStored.safe (hS : Complete S) {dm : DM} (h : MStored S dm) : MSafe S dm := ⟨h.first, h.first.has hS h.cur⟩

theorem MStored.of {dm dm' : DM} (h : MStored S dm) (h1 : dm'.cur = dm.cur) (h2 : dm'.svc.stored = dm.svc.stored) : MStored S dm' := by
  obtain ⟨a, b⟩ := h
  exact ⟨by rw [h2]; exact a, by rw [h1, h2]; exact b⟩

theorem expandSparse_stored (hS : Complete S) {dm dm' : DM} {size : Int} (h : dm.expandSparse env size = (.ok (), dm')) (hm : MStored S dm) : MStored S dm' := by
  unfold DM.expandSparse at h
  split at h
  · cases h
  · next ha =>
    have s := appendData_went hS ha (hm.safe hS)
    split at h
    next hadd =>
    cases h
    have s2 := add_went hadd s.1.first (s.2 _ rfl)
    exact ⟨s2.1.first, .inl (s2.2 rfl)⟩

theorem syncModify_stored (hS : Complete S) {dm dm' : DM} {k : Nat} (h : dm.syncModify env k = (.ok (), dm')) (hm : MStored S dm) : MStored S dm' := by
  unfold DM.syncModify at h
  split at h
  · cases h
  · next hmd =>
    have s := modifyDag_went hS _ _ _ _ _ _ _ _ hmd hm.first (hm.safe hS).links
    split at h
    · cases h
    · next hg =>
      have s2 := get_went hg s.1.first
      have h1 : ∀ b, MStored S { dm with cur := _, buf := b, svc := _ } := fun b => ⟨s2.first, .inl (s2.grew.subset (s.2.2 _ rfl))⟩
      unfold DM.syncTail at h
      simp only at h
      split at h
      · cases h; exact (h1 none).of rfl rfl
      split at h
      · cases h
      · next ha =>
        have s := appendData_went hS ha ((h1 _).safe hS)
        split at h
        · cases h
        · next hadd =>
          cases h
          have s2 := add_went hadd s.1.first (s.2 _ rfl)
          exact ⟨s2.1.first, .inl (s2.2 rfl)⟩

theorem sync_stored (hS : Complete S) {dm dm' : DM} (h : dm.sync env = (.ok (), dm')) (hm : MStored S dm) : MStored S dm' := by
  unfold DM.sync at h
  split at h
  · cases h; exact hm
  simp only at h
  split at h
  · cases h
  split at h
  · split at h
    · cases h
    · next he => exact syncModify_stored hS h (expandSparse_stored hS he (hm.of rfl rfl))
  · exact syncModify_stored hS h (hm.of rfl rfl)

theorem write_stored (hS : Complete S) {dm dm' : DM} {b : Bytes} {n : Int} (h : dm.write env b = (.ok n, dm')) (hm : MStored S dm) : MStored S dm' := by
  unfold DM.write at h
  simp only at h
  split at h
  · split at h
    · cases h
    · next he => cases h; exact sync_stored hS he (hm.of rfl rfl)
  · cases h; exact hm.of rfl rfl

theorem maybeExpand_stored (hS : Complete S) {dm dm' : DM} {c : Prop} [Decidable c] {n : Int} (h : (if c then dm.expandSparse env n else (.ok (), dm)) = (.ok (), dm'))
    (hm : MStored S dm) : MStored S dm' := by
  split at h
  · exact expandSparse_stored hS h hm
  · cases h; exact hm

theorem writeAt_stored (hS : Complete S) {dm dm' : DM} {b : Bytes} {off n : Int} (h : dm.writeAt env b off = (.ok n, dm')) (hm : MStored S dm) : MStored S dm' := by
  unfold DM.writeAt at h
  split at h
  · split at h
    · exact write_stored hS h (hm.of rfl rfl)
    · exact write_stored hS h hm
  split at h
  · split at h
    · cases h
    · split at h
      · cases h
      · next he =>
        have h1 := maybeExpand_stored hS he hm
        split at h
        · cases h
        · next hs => exact write_stored hS h ((sync_stored hS hs h1).of rfl rfl)
  · exact write_stored hS h hm

theorem readOpen_stored {dm : DM} {pos : Int} (hm : MStored S dm) : MStored S (dm.readOpen env pos).2 := by
  unfold DM.readOpen
  split
  · exact hm.of rfl rfl
  · simp only
    repeat' split
    all_goals exact hm.of rfl rfl

theorem readN_stored (hS : Complete S) (hsp : NoSplitEof env) {dm : DM} {k : Nat} (hr : (dm.readN env k).1.err = none ∨ (dm.readN env k).1.err = some .eof)
    (hm : MStored S dm) : MStored S (dm.readN env k).2 := by
  unfold DM.readN at hr ⊢
  split
  · next hs =>
    rw [hs] at hr
    dsimp only at hr
    exact absurd (hr.resolve_left (by simp)) (by simpa using sync_ne hsp hs)
  · next dm1 hs =>
    have h1 := sync_stored hS hs hm
    have : ∀ p, DM.readPrep env dm1 = p → MStored S p.2 := by
      intro p hp
      unfold DM.readPrep at hp
      split at hp
      · subst hp; exact h1
      · subst hp; exact readOpen_stored h1
    split
    · next he => exact this _ he
    · next he => exact (this _ he).of rfl rfl

theorem seekTail_stored (hS : Complete S) {dm dm' : DM} {sz : Int} {new : UInt64} {pos off wh n : Int} (h : dm.seekTail env sz new pos off wh = (.ok n, dm')) (hm : MStored S dm) :
    MStored S dm' := by
  unfold DM.seekTail at h
  split at h
  · cases h
  · next he =>
    have h1 := maybeExpand_stored hS he hm
    split at h
    · cases h; exact h1.of rfl rfl
    · injection h with _ h; subst h; exact h1.of rfl rfl

theorem seek_stored (hS : Complete S) {dm dm' : DM} {off wh n : Int} (h : dm.seek env off wh = (.ok n, dm')) (hm : MStored S dm) : MStored S dm' := by
  unfold DM.seek at h
  split at h
  · cases h
  · next dm1 hs =>
    have h1 := sync_stored hS hs hm
    split at h
    · cases h
    · split at h
      · cases h
      · exact seekTail_stored hS h h1

theorem truncate_stored (hS : Complete S) {dm dm' : DM} {size : Int} (h : dm.truncate env size = (.ok (), dm')) (hm : MStored S dm) : MStored S dm' := by
  unfold DM.truncate at h
  split at h
  · cases h
  · next dm1 hs =>
    have h1 := sync_stored hS hs hm
    split at h
    · cases h
    split at h
    · cases h; exact h1
    split at h
    · exact expandSparse_stored hS h h1
    split at h
    · cases h
    · next ht =>
      have s := dagTruncate_went hS _ _ _ _ _ ht h1.first (h1.safe hS).links
      split at h
      · cases h
      · next ha =>
        cases h
        have s2 := add_went ha s.1.first (s.2 _ rfl)
        exact ⟨s2.1.first, .inl (s2.2 rfl)⟩

theorem num_none {r : Except Err Int × DM} (h : (MRes.num r.1).err = none) : ∃ n, r = (.ok n, r.2) := by
  obtain ⟨r, dm⟩ := r
  cases r with
  | ok n => exact ⟨n, rfl⟩
  | error e => simp [MRes.num] at h

theorem unit_none {r : Except Err Unit × DM} (h : (MRes.unit r.1).err = none) : r = (.ok (), r.2) := by
  obtain ⟨r, dm⟩ := r
  cases r with
  | ok n => rfl
  | error e => simp [MRes.unit] at h

/-- A call that reported no error (`Read`: or EOF). -/
theorem step_stored (hS : Complete S) (hsp : NoSplitEof env) {dm : DM} (op : MOp) (hr : (dm.step env op).1.err = none ∨ ((dm.step env op).1.err = some .eof ∧ ∃ k, op = .read k))
    (hm : MStored S dm) : MStored S (dm.step env op).2 := by
  cases op with
  | write b => obtain ⟨n, h⟩ := num_none (hr.resolve_right (by simp)); exact write_stored hS h hm
  | writeAt b off => obtain ⟨n, h⟩ := num_none (hr.resolve_right (by simp)); exact writeAt_stored hS h hm
  | read k => exact readN_stored hS hsp (hr.imp id (fun h => h.1)) hm
  | seek off wh => obtain ⟨n, h⟩ := num_none (hr.resolve_right (by simp)); exact seek_stored hS h hm
  | truncate s => exact truncate_stored hS (unit_none (hr.resolve_right (by simp))) hm
  | sync => exact sync_stored hS (unit_none (hr.resolve_right (by simp))) hm
  | getNode =>
    replace hr := hr.resolve_right (by simp)
    simp only [DM.step] at hr ⊢
    split
    · next n dm' h =>
      unfold DM.getNode at h
      split at h
      · cases h
      · next hs => cases h; exact sync_stored hS hs hm
    · next h => rw [h] at hr; simp at hr
  | size => exact hm
  | hasChanges => exact hm

end Mod
end Unixfs
