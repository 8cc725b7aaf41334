import Verif.Import.FailLemmas
import Verif.Import.Kin

/-! # What a failed `Append` has stored and made: CID builders and order (C74, C95)

The definitions in this file belong to proofs; they model no code.
-/

namespace Unixfs.Import
open Unixfs.Spec

/-- Two states of the builder that differ only in what was read from the splitter. -/
structure Same (db db' : DB) : Prop where
  cid : db'.cidBuilder = db.cidBuilder
  raws : db'.rawLeaves = db.rawLeaves
  wide : db'.maxlinks = db.maxlinks
  added : db'.added = db.added
  budget : db'.addBudget = db.addBudget

theorem Same.refl (db : DB) : Same db db := ⟨rfl, rfl, rfl, rfl, rfl⟩

theorem Same.trans {a b c : DB} (h : Same a b) (h' : Same b c) : Same a c :=
  ⟨h'.cid.trans h.cid, h'.raws.trans h.raws, h'.wide.trans h.wide, h'.added.trans h.added, h'.budget.trans h.budget⟩

theorem Same.ids {a b : DB} (h : Same a b) : b.ids = a.ids := by simp only [DB.ids, h.added]

theorem prepareNext_same (db : DB) : Same db db.prepareNext := by
  unfold DB.prepareNext
  repeat' split
  all_goals exact ⟨rfl, rfl, rfl, rfl, rfl⟩

theorem done_same (db : DB) : Same db db.done.2 := by
  have := prepareNext_same db
  unfold DB.done
  dsimp only
  split <;> exact this

theorem done_same' {db db' : DB} {b : Bool} (h : db.done = (b, db')) : Same db db' := by
  have := done_same db
  rw [h] at this; exact this

theorem nextF_same (db : DB) : Same db db.nextF.2 := by
  have := prepareNext_same db
  unfold DB.nextF
  dsimp only
  split <;> exact ⟨this.cid, this.raws, this.wide, this.added, this.budget⟩

theorem newLeafDataNodeF_same (db : DB) (t : UInt32) : Same db (db.newLeafDataNodeF t).2 := by
  have h1 := nextF_same db
  unfold DB.newLeafDataNodeF
  rcases hx : db.nextF with ⟨e | d, db1⟩
  · rw [hx] at h1; exact h1
  · rw [hx] at h1
    simp only
    cases db1.newLeafNode d t with
    | error e => exact h1
    | ok n =>
      simp only
      unfold DB.processFileStore
      split
      · exact ⟨h1.cid, h1.raws, h1.wide, h1.added, h1.budget⟩
      · exact h1

/-! ## Results without errors, okState through the functions of this kind -/

theorem newLeafDataNode_of {db db' : DB} {t : UInt32} {x : Built × UInt64} (h : db.newLeafDataNodeF t = (.ok x, db')) : db.newLeafDataNode t = .ok (x, db') := by
  rw [← newLeafDataNodeF_eq, h]; rfl

theorem addChild_of {n n' : FSN} {c : Built} {sz : UInt64} {db db' : DB} {u : Unit} (h : n.addChildF c sz db = (.ok u, n', db')) : n.addChild c sz db = .ok (n', db') := by
  rw [← addChildF_eq, h]; rfl

theorem fillLayerLoop_of {k : Nat} {n n' : FSN} {db db' : DB} {u : Unit} (h : DB.fillLayerLoopF k n db = (.ok u, n', db')) : DB.fillLayerLoop k n db = .ok (n', db') := by
  rw [← fillLayerLoopF_eq, h]; rfl

theorem fillNodeLayer_of {n n' : FSN} {db db' : DB} {u : Unit} (h : DB.fillNodeLayerF n db = (.ok u, n', db')) : DB.fillNodeLayer n db = .ok (n', db') := by
  rw [← fillNodeLayerF_eq, h]; rfl

/-- `AddChild` fails only with `Add`. -/
theorem addChildF_error {n n' : FSN} {c : Built} {sz : UInt64} {db db' : DB} {e : Err} (h : n.addChildF c sz db = (.error e, n', db')) :
    db' = db ∧ db.addBudget = some 0 ∧ n'.builder = n.builder ∧ n'.links = n.links ++ [makeLink [] c.node] := by
  unfold FSN.addChildF at h
  dsimp only at h
  split at h
  · next ha =>
    cases h
    refine ⟨rfl, ?_, rfl, rfl⟩
    unfold DB.add at ha
    split at ha
    · cases ha
    · next hb => exact hb
    · cases ha
  · cases h

namespace Trickle

theorem layers_of {d : Nat} {n n' : FSN} {db db' : DB} {u : Unit} (h : layersF d n db = (.ok u, n', db')) : layers d n db = .ok (n', db') := by
  rw [← layersF_eq, h]; rfl

theorem subTrickle_of {i : Nat} {db db' : DB} {x : Node × UInt64} (h : subTrickleF i db = (.ok x, db')) : subTrickle i db = .ok (x, db') := by
  rw [← subTrickleF_eq, h]; rfl

theorem repeatLoop_of {i k : Nat} {n n' : FSN} {db db' : DB} {u : Unit} (h : repeatLoopF (subTrickleF i) k n db = (.ok u, n', db')) :
    repeatLoop (subTrickle i) k n db = .ok (n', db') := by
  rw [← repeatLoopF_eq (subTrickleF_eq i), h]; rfl

theorem growLoop_of {fuel i : Nat} {n n' : FSN} {db db' : DB} {u : Unit} (h : growLoopF fuel i n db = (.ok u, n', db')) : growLoop fuel i n db = .ok (n', db') := by
  rw [← growLoopF_eq, h]; rfl

theorem boundedGrow_of {k i : Nat} {n n' : FSN} {db db' : DB} {u : Unit} (h : boundedGrowF k i n db = (.ok u, n', db')) : boundedGrow k i n db = .ok (n', db') := by
  rw [← boundedGrowF_eq, h]; rfl

theorem appendFillLastChild_of {h depth rep : Nat} {n n' : FSN} {db db' : DB} {u : Unit} (hr : appendFillLastChildF (appendRecF h) n depth rep db = (.ok u, n', db')) :
    appendFillLastChild (appendRec h) n depth rep db = .ok (n', db') := by
  rw [← appendFillLastChildF_eq (appendRecF_eq h), hr]; rfl

theorem appendRec_of {h : Nat} {n : FSN} {db db' : DB} {d : Int} {x : FSN × UInt64} (hr : appendRecF h n db d = (.ok x, db')) :
    appendRec h n db d = .ok (x, db') := by
  rw [← appendRecF_eq, hr]; rfl

theorem appendDirect_of {n n' : FSN} {db db' : DB} {d : Nat} (hr : appendDirectF n db = (.ok d, n', db')) : appendDirect n db = .ok ((n', d), db') := by
  rw [← appendDirectF_eq, hr]

end Trickle

/-! ## CID builders -/

variable {T : Node → Prop} {B : Builder} {raw st f : Bool}

theorem DKin.same {db db' : DB} (h : DKin T B raw db) (hs : Same db db') : DKin T B raw db' :=
  ⟨hs.cid.trans h.cid, hs.raws.trans h.raws, by rw [hs.wide]; exact h.wide, by rw [hs.ids]; exact h.all⟩

theorem addChildF_kin {n n' : FSN} {c : Built} {sz : UInt64} {db db' : DB} {e : Err} (h : n.addChildF c sz db = (.error e, n', db'))
    (hn : NKin T B f n) (hd : DKin T B raw db) (hc : T c.node) : NKin T B true n' ∧ DKin T B raw db' := by
  obtain ⟨rfl, _, h1, h2⟩ := addChildF_error h
  refine ⟨⟨h1.trans hn.builder, by rw [h2]; simp, ?_⟩, hd⟩
  intro l hl
  rw [h2, List.mem_append, List.mem_singleton] at hl
  rcases hl with hl | rfl
  · exact hn.links l hl
  · exact hc

theorem fillLayerLoopF_kin (hF : Family T B raw st) : ∀ (k : Nat) (n : FSN) (db : DB) (e : Err) (n' : FSN) (db' : DB), DB.fillLayerLoopF k n db = (.error e, n', db') →
    NKin T B f n → DKin T B raw db → NKin T B f n' ∧ DKin T B raw db'
  | 0, n, db, e, n', db', h, hn, hd => by cases h
  | k + 1, n, db, e, n', db', h, hn, hd => by
    unfold DB.fillLayerLoopF at h
    split at h
    · cases h
    · next db1 he =>
      have h1 := hd.same (done_same' he)
      have hsame := newLeafDataNodeF_same db1 TRaw
      split at h
      · next hl => rw [hl] at hsame; cases h; exact ⟨hn, h1.same hsame⟩
      · next hl =>
        obtain ⟨h2, h3⟩ := newLeafDataNode_kin hF (newLeafDataNode_of hl) h1
        split at h
        · next ha => cases h; exact ⟨(addChildF_kin ha hn h3 h2).1.weaken, (addChildF_kin ha hn h3 h2).2⟩
        · next ha =>
          obtain ⟨h4, h5⟩ := addChild_kin (addChild_of ha) h3 hn h2
          exact fillLayerLoopF_kin hF k _ _ _ _ _ h h4.weaken h5

theorem fillNodeLayerF_kin (hF : Family T B raw st) {n n' : FSN} {db db' : DB} {e : Err} (h : DB.fillNodeLayerF n db = (.error e, n', db'))
    (hn : NKin T B f n) (hd : DKin T B raw db) : NKin T B f n' ∧ DKin T B raw db' := by
  unfold DB.fillNodeLayerF at h
  split at h
  · next hl => cases h; exact fillLayerLoopF_kin hF _ _ _ _ _ _ hl hn hd
  · next hl =>
    split at h
    · cases h; exact fillLayerLoop_kin hF _ _ _ _ _ (fillLayerLoop_of hl) hn hd
    · cases h

namespace Trickle

/-- A function that failed to build a sub-graph. -/
def SubKinF (T : Node → Prop) (B : Builder) (raw : Bool) (sub : DB → Except Err (Node × UInt64) × DB) : Prop :=
  ∀ db e db', sub db = (.error e, db') → db.done = (false, db) → DKin T B raw db → DKin T B raw db'

theorem repeatLoopF_kin {subF sub} (hs : ∀ db, okState (subF db) = sub db) (hc : SubKin T B raw sub) (hcF : SubKinF T B raw subF) :
    ∀ (k : Nat) (n : FSN) (db : DB) (e : Err) (n' : FSN) (db' : DB), repeatLoopF subF k n db = (.error e, n', db') →
    NKin T B f n → DKin T B raw db → NKin T B f n' ∧ DKin T B raw db'
  | 0, n, db, e, n', db', h, hn, hd => by cases h
  | k + 1, n, db, e, n', db', h, hn, hd => by
    unfold repeatLoopF at h
    split at h
    · cases h
    · next db1 he =>
      have h1 := hd.same (done_same' he)
      split at h
      · next hl => cases h; exact ⟨hn, hcF _ _ _ hl (done_done he) h1⟩
      · next hl =>
        obtain ⟨h2, h3⟩ := hc _ _ _ _ (by rw [← hs, hl]; rfl) (done_done he) h1
        split at h
        · next ha => cases h; exact ⟨(addChildF_kin ha hn h3 h2).1.weaken, (addChildF_kin ha hn h3 h2).2⟩
        · next ha =>
          obtain ⟨h4, h5⟩ := addChild_kin (addChild_of ha) h3 hn h2
          exact repeatLoopF_kin hs hc hcF k _ _ _ _ _ h h4.weaken h5

theorem layersF_kin (hF : Family T B raw st) : ∀ (d : Nat) (f : Bool) (n : FSN) (db : DB) (e : Err) (n' : FSN) (db' : DB), layersF d n db = (.error e, n', db') →
    NKin T B f n → DKin T B raw db → NKin T B f n' ∧ DKin T B raw db'
  | 0, f, n, db, e, n', db', h, hn, hd => by unfold layersF at h; cases h
  | d + 1, f, n, db, e, n', db', h, hn, hd => by
    unfold layersF at h
    split at h
    · next hl => cases h; exact layersF_kin hF d _ _ _ _ _ _ hl hn hd
    · next hl =>
      obtain ⟨h1, h2⟩ := layers_kin hF d _ _ _ _ _ (layers_of hl) hn hd
      split at h
      · cases h
      split at h
      · cases h
      · next he =>
        have hd' := h2.same (done_same' he)
        refine repeatLoopF_kin (sub := fun db => okState _) (fun _ => rfl) ?_ ?_ _ _ _ _ _ _ h h1 hd'
        · intro db n sz db' h hp hd
          dsimp only at h
          rcases hx : DB.fillNodeLayerF (FSN.new db TFile) db with ⟨e | ⟨⟩, n5, db5⟩
          · rw [hx] at h; cases h
          · rw [hx] at h
            dsimp only at h
            obtain ⟨g1, g2⟩ := freshLayer_kin hF (fillNodeLayer_of hx) hp hd
            rcases hy : layersF d n5 db5 with ⟨e | ⟨⟩, n6, db6⟩
            · rw [hy] at h; cases h
            · rw [hy] at h
              dsimp only at h
              rw [finishF_eq] at h
              obtain ⟨g3, g4⟩ := layers_kin hF d _ _ _ _ _ (layers_of hy) g1 g2
              exact finish_kin hF h g3.weaken g4
        · intro db e db' h hp hd
          dsimp only at h
          split at h
          · next hx => cases h; exact (fillNodeLayerF_kin hF hx (.new hd hF _) hd).2
          · next hx =>
            obtain ⟨g1, g2⟩ := freshLayer_kin hF (fillNodeLayer_of hx) hp hd
            split at h
            · next hy => cases h; exact (layersF_kin hF d _ _ _ _ _ _ hy g1 g2).2
            · next hy =>
              obtain ⟨g3, g4⟩ := layers_kin hF d _ _ _ _ _ (layers_of hy) g1 g2
              unfold finishF at h
              split at h <;> cases h
              exact g4

theorem subTrickleF_kin (hF : Family T B raw st) (i : Nat) : SubKinF T B raw (subTrickleF i) := by
  intro db e db' h hp hd
  unfold subTrickleF at h
  split at h
  · next hx => cases h; exact (fillNodeLayerF_kin hF hx (.new hd hF _) hd).2
  · next hx =>
    obtain ⟨g1, g2⟩ := freshLayer_kin hF (fillNodeLayer_of hx) hp hd
    split at h
    · next hy => cases h; exact (layersF_kin hF _ _ _ _ _ _ _ hy g1 g2).2
    · next hy =>
      obtain ⟨g3, g4⟩ := layers_kin hF _ _ _ _ _ _ (layers_of hy) g1 g2
      unfold finishF at h
      split at h <;> cases h
      exact g4

theorem growLoopF_kin (hF : Family T B raw st) : ∀ (fuel i : Nat) (n : FSN) (db : DB) (e : Err) (n' : FSN) (db' : DB), growLoopF fuel i n db = (.error e, n', db') →
    NKin T B f n → DKin T B raw db → NKin T B f n' ∧ DKin T B raw db'
  | 0, i, n, db, e, n', db', h, hn, hd => by
    unfold growLoopF at h
    split at h
    · cases h
    · next he => cases h; exact ⟨hn, hd.same (done_same' he)⟩
  | fuel + 1, i, n, db, e, n', db', h, hn, hd => by
    unfold growLoopF at h
    split at h
    · cases h
    · next he =>
      have h1 := hd.same (done_same' he)
      split at h
      · next hr => cases h; exact repeatLoopF_kin (subTrickleF_eq i) (subTrickle_kin hF i) (subTrickleF_kin hF i) _ _ _ _ _ _ hr hn h1
      · next hr =>
        obtain ⟨h2, h3⟩ := repeatLoop_kin (subTrickle_kin hF i) _ _ _ _ _ (repeatLoop_of hr) hn h1
        exact growLoopF_kin hF fuel _ _ _ _ _ _ h h2 h3

theorem boundedGrowF_kin (hF : Family T B raw st) : ∀ (k i : Nat) (n : FSN) (db : DB) (e : Err) (n' : FSN) (db' : DB), boundedGrowF k i n db = (.error e, n', db') →
    NKin T B f n → DKin T B raw db → NKin T B f n' ∧ DKin T B raw db'
  | 0, i, n, db, e, n', db', h, hn, hd => by cases h
  | k + 1, i, n, db, e, n', db', h, hn, hd => by
    unfold boundedGrowF at h
    split at h
    · cases h
    · next he =>
      have h1 := hd.same (done_same' he)
      split at h
      · next hr => cases h; exact repeatLoopF_kin (subTrickleF_eq i) (subTrickle_kin hF i) (subTrickleF_kin hF i) _ _ _ _ _ _ hr hn h1
      · next hr =>
        obtain ⟨h2, h3⟩ := repeatLoop_kin (subTrickle_kin hF i) _ _ _ _ _ (repeatLoop_of hr) hn h1
        exact boundedGrowF_kin hF k _ _ _ _ _ _ h h2 h3

theorem getChild_kin (hF : Family T B raw st) {n c : FSN} {i : Nat} {g : Node → Bool} (hg : n.getChild i g = .ok c) (hn : NKin T B f n) : NKin T B st c := by
  unfold FSN.getChild at hg
  split at hg
  · cases hg
  · next l hl =>
    have := hn.links l (List.mem_of_getElem? hl)
    split at hg
    · split at hg
      · next ht => rw [ht] at this; exact fromDag_kin hF hg this
      · cases hg
    · cases hg

theorem appendFillLastChildF_kin (hF : Family T B raw st) {recF : FSN → DB → Int → Except Err (FSN × UInt64) × DB} {rec : FSN → DB → Int → Except Err ((FSN × UInt64) × DB)} (hs : ∀ n db d, okState (recF n db d) = rec n db d)
    (hrec : ∀ n db d n' sz db', rec n db d = .ok ((n', sz), db') → NKin T B st n → DKin T B raw db → NKin T B st n' ∧ DKin T B raw db')
    (hrecF : ∀ n db d e db', recF n db d = (.error e, db') → NKin T B st n → DKin T B raw db → DKin T B raw db')
    {n n' : FSN} {depth rep : Nat} {db db' : DB} {e : Err} (h : appendFillLastChildF recF n depth rep db = (.error e, n', db')) (hn : NKin T B st n) (hd : DKin T B raw db) :
    NKin T B st n' ∧ DKin T B raw db' := by
  unfold appendFillLastChildF at h
  split at h
  · cases h
  next hnum =>
  simp only at h
  split at h
  · cases h; exact ⟨hn, hd⟩
  · next lastChild hg =>
    have hlc := getChild_kin hF hg hn
    split at h
    · next hr => cases h; exact ⟨hn, hrecF _ _ _ _ _ hr hlc hd⟩
    · next hr =>
      obtain ⟨h1, h2⟩ := hrec _ _ _ _ _ _ (by rw [← hs, hr]; rfl) hlc hd
      split at h
      · cases h; exact ⟨hn, h2⟩
      · next hrm =>
        have h3 : ∀ f : FSN, n.removeChild (n.numChildren - 1) = .ok f → NKin T B true f := by
          intro f hf
          unfold FSN.removeChild at hf
          split at hf
          · cases hf
          · split at hf
            · next hlt =>
              cases hf
              refine ⟨hn.builder, ?_, ?_⟩
              · intro _ he
                have hw := hd.wide
                have := congrArg List.length he
                simp only [List.length_append, List.length_take, List.length_nil] at this
                omega
              · intro l hl
                simp only [List.mem_append] at hl
                exact hn.links l (hl.elim List.mem_of_mem_take List.mem_of_mem_drop)
            · cases hf
        split at h
        · cases h; exact ⟨(h3 _ hrm).weaken, h2⟩
        · next hc =>
          split at h
          · next ha =>
            cases h
            have := addChildF_kin ha (h3 _ hrm) h2 (commit_kin hF hc h1)
            exact ⟨this.1.weaken, this.2⟩
          · next ha =>
            obtain ⟨h4, h5⟩ := addChild_kin (addChild_of ha) h2 (h3 _ hrm) (commit_kin hF hc h1)
            split at h
            · exact repeatLoopF_kin (subTrickleF_eq _) (subTrickle_kin hF _) (subTrickleF_kin hF _) _ _ _ _ _ _ h h4.weaken h5
            · cases h

theorem appendRecF_kin (hF : Family T B raw st) : ∀ (fuel : Nat) (n : FSN) (db : DB) (d : Int) (e : Err) (db' : DB),
    appendRecF fuel n db d = (.error e, db') → NKin T B st n → DKin T B raw db → DKin T B raw db'
  | 0, n, db, d, e, db', h, hn, hd => by cases h; exact hd
  | fuel + 1, n, db, d, e, db', h, hn, hd => by
    unfold appendRecF at h
    split at h
    · cases h
    split at h
    · cases h
    · next he =>
      have hd1 := hd.same (done_same' he)
      simp only at h
      split at h
      · next hD =>
        cases h
        unfold appendDirectF at hD
        split at hD
        · split at hD
          · next hf => cases hD; exact (fillNodeLayerF_kin hF hf hn hd1).2
          · cases hD
        · cases hD
      · next depth n2 db2 hD =>
        have s2 : NKin T B st n2 ∧ DKin T B raw db2 := by
          unfold appendDirectF at hD
          split at hD
          · split at hD
            · cases hD
            · next hf => cases hD; exact fillNodeLayer_kin hF (fillNodeLayer_of hf) hn hd1
          · cases hD; exact ⟨hn, hd1⟩
        split at h
        · cases h
        split at h
        · next hA =>
          cases h
          exact (appendFillLastChildF_kin hF (appendRecF_eq fuel) (fun _ _ _ _ _ _ h hn hd => appendRec_kin hF fuel _ _ _ _ _ _ h hn hd)
            (fun _ _ _ _ _ h hn hd => appendRecF_kin hF fuel _ _ _ _ _ h hn hd) hA s2.1 s2.2).2
        · next n3 db3 hA =>
          have s3 := appendFillLastChild_kin hF (fun _ _ _ _ _ _ h hn hd => appendRec_kin hF fuel _ _ _ _ _ _ h hn hd) (appendFillLastChild_of hA) s2.1 s2.2
          split at h
          · next hb => cases h; exact (boundedGrowF_kin hF _ _ _ _ _ _ _ hb s3.1 (s3.2.same (done_same _))).2
          · cases h

theorem appendRestF_kin (hF : Family T B raw st) {fuel h depth rep : Nat} {n n' : FSN} {db db' : DB} {e : Err} (hr : appendRestF fuel h n depth rep db = (.error e, n', db'))
    (hn : NKin T B st n) (hd : DKin T B raw db) : NKin T B st n' ∧ DKin T B raw db' := by
  unfold appendRestF at hr
  split at hr
  · next hA =>
    cases hr
    exact appendFillLastChildF_kin hF (appendRecF_eq h) (fun _ _ _ _ _ _ h hn hd => appendRec_kin hF _ _ _ _ _ _ _ h hn hd)
      (fun _ _ _ _ _ h hn hd => appendRecF_kin hF _ _ _ _ _ _ h hn hd) hA hn hd
  · next n3 db3 hA =>
    have s3 := appendFillLastChild_kin hF (fun _ _ _ _ _ _ h hn hd => appendRec_kin hF _ _ _ _ _ _ _ h hn hd) (appendFillLastChild_of hA) hn hd
    simp only at hr
    split at hr
    · next hg => cases hr; exact growLoopF_kin hF _ _ _ _ _ _ _ hg s3.1 (s3.2.same (done_same _))
    · next hg =>
      have s4 := growLoop_kin hF _ _ _ _ _ _ (growLoop_of hg) s3.1 (s3.2.same (done_same _))
      split at hr <;> cases hr
      exact s4

/-- What is left of the node by a failed `Append`, and what it has stored. -/
theorem appendF_kin (hF : Family T B raw st) {fuel h : Nat} {base r : Node} {db db' : DB} {e : Err} (hr : appendF fuel h base db = (.error e, r, db'))
    (hb : T base) (hd : DKin T B raw db) : T r ∧ DKin T B raw db' := by
  have key : ∀ n : FSN, NKin T B st n → T n.getDagNode := by
    intro n hn
    simp only [FSN.getDagNode, hn.builder]
    exact hF.proto _ _ hn.full hn.links
  unfold appendF at hr
  split at hr
  · split at hr
    · cases hr; exact ⟨hb, hd⟩
    · next d ls b fsn hf =>
      have hn := fromDag_kin hF hf hb
      simp only at hr
      split at hr
      · split at hr
        · next hL =>
          cases hr
          have := fillNodeLayerF_kin hF hL hn hd
          exact ⟨key _ this.1, this.2⟩
        · next hL =>
          have s1 := fillNodeLayer_kin hF (fillNodeLayer_of hL) hn hd
          split at hr
          · cases hr
          · next he =>
            rcases hx : appendRestF fuel h _ 1 (depthInfo fsn db.maxlinks).2 _ with ⟨r', n5, db5⟩
            rw [hx] at hr
            cases hr
            have := appendRestF_kin hF hx s1.1 (s1.2.same (done_same' he))
            exact ⟨key _ this.1, this.2⟩
      · rcases hx : appendRestF fuel h fsn (depthInfo fsn db.maxlinks).1 (depthInfo fsn db.maxlinks).2 db with ⟨r', n5, db5⟩
        rw [hx] at hr
        cases hr
        have := appendRestF_kin hF hx hn hd
        exact ⟨key _ this.1, this.2⟩
  · cases hr; exact ⟨hb, hd⟩

end Trickle
end Unixfs.Import
