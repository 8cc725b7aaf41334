import Verif.Spec.Kin
import Verif.Import.Crash

/-! # The CID builders of the nodes that `Append` makes (C95)

The definitions in this file belong to proofs; they model no code.
-/

namespace Unixfs
open Unixfs.Spec

/-- What is used of a property of DAGs: it holds of nodes with the builder `B` that link to such DAGs, and of
raw leaves if `raw`. If `st`, that it holds of nodes without links is not asked for. -/
structure Family (T : Node → Prop) (B : Builder) (raw st : Bool) : Prop where
  imp : st = true → raw = true
  codec : B.codec = 0x70
  proto : ∀ d ls, (st = true → ls ≠ []) → (∀ l ∈ ls, T l.target) → T (.proto d ls B)
  same : ∀ d ls b, T (.proto d ls b) → st = true → ls ≠ []
  inv : ∀ d ls b, T (.proto d ls b) → b = B ∧ ∀ l ∈ ls, T l.target
  leaf : raw = true → ∀ d, T (.raw d (B.withCodec Builder.rawCodec))
  edit : ∀ d b d', T (.raw d b) → T (.raw d' (b.withCodec Builder.rawCodec))
  other : ∀ d, T (.other d)

namespace Import

variable {T : Node → Prop} {B : Builder} {raw st f : Bool}

/-- The configuration, and what was stored. -/
structure DKin (T : Node → Prop) (B : Builder) (raw : Bool) (db : DB) : Prop where
  cid : db.cidBuilder = some B
  raws : db.rawLeaves = raw
  wide : 0 < db.maxlinks
  all : ∀ x ∈ db.ids, T x

/-- A node under construction; if `f`, it has a link already. -/
structure NKin (T : Node → Prop) (B : Builder) (f : Bool) (n : FSN) : Prop where
  builder : n.builder = B
  full : f = true → n.links ≠ []
  links : ∀ l ∈ n.links, T l.target

theorem DKin.pb {db : DB} (h : DKin T B raw db) (hF : Family T B raw st) : db.pbBuilder = B := by
  simp [DB.pbBuilder, h.cid, Builder.withCodec, hF.codec]

theorem NKin.new {db : DB} (h : DKin T B raw db) (hF : Family T B raw st) (t : UInt32) : NKin T B false (FSN.new db t) := ⟨h.pb hF, by simp, by simp [FSN.new]⟩

theorem done_kin {db db' : DB} {b : Bool} (h : db.done = (b, db')) (hd : DKin T B raw db) : DKin T B raw db' := by
  refine ⟨?_, ?_, ?_, by rw [done_ids h]; exact hd.all⟩
  · rw [← hd.cid]
    unfold DB.done DB.prepareNext at h
    simp only at h
    repeat' split at h
    all_goals (cases h; rfl)
  · rw [← hd.raws]
    unfold DB.done DB.prepareNext at h
    simp only at h
    repeat' split at h
    all_goals (cases h; rfl)
  · have := hd.wide
    unfold DB.done DB.prepareNext at h
    simp only at h
    repeat' split at h
    all_goals (cases h; exact this)

theorem next_kin {db db' : DB} {d : Option Bytes} (h : db.next = .ok (d, db')) (hd : DKin T B raw db) : DKin T B raw db' := by
  refine ⟨?_, ?_, ?_, by rw [next_ids h]; exact hd.all⟩
  · rw [← hd.cid]
    unfold DB.next DB.prepareNext at h
    simp only at h
    repeat' split at h
    all_goals first | (cases h; done) | (cases h; rfl)
  · rw [← hd.raws]
    unfold DB.next DB.prepareNext at h
    simp only at h
    repeat' split at h
    all_goals first | (cases h; done) | (cases h; rfl)
  · have := hd.wide
    unfold DB.next DB.prepareNext at h
    simp only at h
    repeat' split at h
    all_goals first | (cases h; done) | (cases h; exact this)

theorem done_done {db db' : DB} {b : Bool} (h : db.done = (b, db')) : db'.done = (b, db') := by
  have hp : ∀ db : DB, db.prepareNext.prepareNext = db.prepareNext := by
    intro db
    unfold DB.prepareNext
    repeat' split
    all_goals simp_all
  unfold DB.done at h ⊢
  simp only at h ⊢
  split at h <;> cases h <;> simp_all

theorem add_kin {db db' : DB} {b : Built} (h : db.add b = .ok db') (hd : DKin T B raw db) (hb : T b.node) : DKin T B raw db' := by
  unfold DB.add at h
  split at h <;> first | (cases h; done) | skip
  all_goals
    cases h
    refine ⟨hd.cid, hd.raws, hd.wide, ?_⟩
    intro x hx
    simp only [DB.ids, List.map_append, List.mem_append, List.map_cons, List.map_nil, List.mem_singleton] at hx
    rcases hx with hx | rfl
    · exact hd.all x hx
    · exact hb

theorem addChild_kin {n n' : FSN} {b : Built} {sz : UInt64} {db db' : DB} (h : n.addChild b sz db = .ok (n', db'))
    (hd : DKin T B raw db) (hn : NKin T B f n) (hb : T b.node) : NKin T B true n' ∧ DKin T B raw db' := by
  unfold FSN.addChild at h
  simp only at h
  split at h
  · cases h
  · next ha =>
    cases h
    refine ⟨⟨hn.builder, by simp, ?_⟩, add_kin ha hd hb⟩
    intro l hl
    simp only [List.mem_append, List.mem_singleton] at hl
    rcases hl with hl | rfl
    · exact hn.links l hl
    · exact hb

theorem NKin.weaken {n : FSN} (h : NKin T B true n) : NKin T B f n := ⟨h.builder, fun _ => h.full rfl, h.links⟩

theorem commit_keeps {n n' : FSN} {k : Node} (h : n.commit = .ok (k, n')) (hn : NKin T B f n) : NKin T B f n' := by
  unfold FSN.commit at h
  split at h <;> cases h
  exact ⟨hn.builder, hn.full, hn.links⟩

theorem commit_kin (hF : Family T B raw st) {n n' : FSN} {k : Node} (h : n.commit = .ok (k, n')) (hn : NKin T B st n) : T k := by
  unfold FSN.commit at h
  split at h <;> cases h
  simp only [FSN.getDagNode, hn.builder]
  exact hF.proto _ _ hn.full hn.links

theorem newLeafNode_kin (hF : Family T B raw st) {db : DB} {d : Option Bytes} {t : UInt32} {n : Node} (h : db.newLeafNode d t = .ok n) (hd : DKin T B raw db) : T n := by
  unfold DB.newLeafNode at h
  split at h
  · cases h
  split at h
  · next hr =>
    cases h
    unfold DB.rawNode
    simp only [hd.cid]
    exact hF.leaf (by rw [← hd.raws]; exact hr) _
  next hr =>
  split at h
  · cases h
  · next hc =>
    cases h
    refine commit_kin hF hc (show NKin T B st ((FSN.new db t).setFileData d) from ⟨hd.pb hF, ?_, by simp [FSN.new, FSN.setFileData]⟩)
    intro h
    rw [hd.raws] at hr
    exact absurd (hF.imp h) hr

theorem newLeafDataNode_kin (hF : Family T B raw st) {db db' : DB} {t : UInt32} {b : Built} {sz : UInt64} (h : db.newLeafDataNode t = .ok ((b, sz), db'))
    (hd : DKin T B raw db) : T b.node ∧ DKin T B raw db' := by
  unfold DB.newLeafDataNode at h
  split at h
  · cases h
  · next d db1 hn =>
    simp only at h
    split at h
    · cases h
    · next n hl =>
      have h1 := next_kin hn hd
      have h2 := newLeafNode_kin hF hl h1
      cases h
      unfold DB.processFileStore
      split
      · exact ⟨h2, h1.cid, h1.raws, h1.wide, h1.all⟩
      · exact ⟨h2, h1⟩

theorem fillLayerLoop_kin (hF : Family T B raw st) : ∀ (k : Nat) (n : FSN) (db : DB) (n' : FSN) (db' : DB), DB.fillLayerLoop k n db = .ok (n', db') →
    NKin T B f n → DKin T B raw db → NKin T B f n' ∧ DKin T B raw db'
  | 0, n, db, n', db', h, hn, hd => by cases h; exact ⟨hn, hd⟩
  | k + 1, n, db, n', db', h, hn, hd => by
    unfold DB.fillLayerLoop at h
    split at h
    · next he => cases h; exact ⟨hn, done_kin he hd⟩
    · next he =>
      have h1 := done_kin he hd
      split at h
      · cases h
      · next hl =>
        obtain ⟨h2, h3⟩ := newLeafDataNode_kin hF hl h1
        split at h
        · cases h
        · next ha =>
          obtain ⟨h4, h5⟩ := addChild_kin ha h3 hn h2
          exact fillLayerLoop_kin hF k _ _ _ _ h h4.weaken h5

theorem fillNodeLayer_kin (hF : Family T B raw st) {n n' : FSN} {db db' : DB} (h : DB.fillNodeLayer n db = .ok (n', db')) (hn : NKin T B f n) (hd : DKin T B raw db) :
    NKin T B f n' ∧ DKin T B raw db' := by
  unfold DB.fillNodeLayer at h
  split at h
  · cases h
  · next hl =>
    obtain ⟨h1, h2⟩ := fillLayerLoop_kin hF _ _ _ _ _ hl hn hd
    split at h
    · cases h
    · next hc => cases h; exact ⟨commit_keeps hc h1, h2⟩

/-- A new node to which at least one leaf is added. -/
theorem freshLayer_kin (hF : Family T B raw st) {t : UInt32} {n' : FSN} {db db' : DB} (h : DB.fillNodeLayer (FSN.new db t) db = .ok (n', db'))
    (hp : db.done = (false, db)) (hd : DKin T B raw db) : NKin T B true n' ∧ DKin T B raw db' := by
  unfold DB.fillNodeLayer at h
  split at h
  · cases h
  · next n1 db1 hl =>
    have hk : db.maxlinks - (FSN.new db t).numChildren = (db.maxlinks - 1) + 1 := by
      have := hd.wide
      have h0 : (FSN.new db t).numChildren = 0 := by rfl
      omega
    rw [hk] at hl
    unfold DB.fillLayerLoop at hl
    rw [hp] at hl
    dsimp only at hl
    have key : NKin T B true n1 ∧ DKin T B raw db1 := by
      split at hl
      · cases hl
      · next hn =>
        obtain ⟨h2, h3⟩ := newLeafDataNode_kin hF hn hd
        split at hl
        · cases hl
        · next ha =>
          obtain ⟨h4, h5⟩ := addChild_kin ha h3 (.new hd hF _) h2
          exact fillLayerLoop_kin hF _ _ _ _ _ hl h4 h5
    split at h
    · cases h
    · next hc => cases h; exact ⟨commit_keeps hc key.1, key.2⟩

namespace Trickle

/-- A function that builds a sub-graph. -/
def SubKin (T : Node → Prop) (B : Builder) (raw : Bool) (sub : DB → Except Err ((Node × UInt64) × DB)) : Prop :=
  ∀ db n sz db', sub db = .ok ((n, sz), db') → db.done = (false, db) → DKin T B raw db → T n ∧ DKin T B raw db'

theorem repeatLoop_kin {sub} (hc : SubKin T B raw sub) : ∀ (k : Nat) (n : FSN) (db : DB) (n' : FSN) (db' : DB), repeatLoop sub k n db = .ok (n', db') →
    NKin T B f n → DKin T B raw db → NKin T B f n' ∧ DKin T B raw db'
  | 0, n, db, n', db', h, hn, hd => by cases h; exact ⟨hn, hd⟩
  | k + 1, n, db, n', db', h, hn, hd => by
    unfold repeatLoop at h
    split at h
    · next he => cases h; exact ⟨hn, done_kin he hd⟩
    · next he =>
      have h1 := done_kin he hd
      split at h
      · cases h
      · next hl =>
        obtain ⟨h2, h3⟩ := hc _ _ _ _ hl (done_done he) h1
        split at h
        · cases h
        · next ha =>
          obtain ⟨h4, h5⟩ := addChild_kin ha h3 hn h2
          exact repeatLoop_kin hc k _ _ _ _ h h4.weaken h5

theorem finish_kin (hF : Family T B raw st) {n : FSN} {db db' : DB} {k : Node} {sz : UInt64} (h : finish n db = .ok ((k, sz), db')) (hn : NKin T B st n) (hd : DKin T B raw db) :
    T k ∧ DKin T B raw db' := by
  unfold finish at h
  split at h
  · cases h
  · next hc => cases h; exact ⟨commit_kin hF hc hn, hd⟩

theorem layers_kin (hF : Family T B raw st) : ∀ (d : Nat) (f : Bool) (n : FSN) (db : DB) (n' : FSN) (db' : DB), layers d n db = .ok (n', db') →
    NKin T B f n → DKin T B raw db → NKin T B f n' ∧ DKin T B raw db'
  | 0, f, n, db, n', db', h, hn, hd => by unfold layers at h; cases h; exact ⟨hn, hd⟩
  | d + 1, f, n, db, n', db', h, hn, hd => by
    unfold layers at h
    split at h
    · cases h
    · next hl =>
      obtain ⟨h1, h2⟩ := layers_kin hF d _ _ _ _ _ hl hn hd
      split at h
      · cases h; exact ⟨h1, h2⟩
      split at h
      · next he => cases h; exact ⟨h1, done_kin he h2⟩
      · next he =>
        refine repeatLoop_kin ?_ _ _ _ _ _ h h1 (done_kin he h2)
        intro db n sz db' h hp hd
        dsimp only at h
        split at h
        · cases h
        · next hf =>
          obtain ⟨g1, g2⟩ := freshLayer_kin hF hf hp hd
          split at h
          · cases h
          · next hl2 =>
            obtain ⟨g3, g4⟩ := layers_kin hF d _ _ _ _ _ hl2 g1 g2
            exact finish_kin hF h g3.weaken g4

theorem subTrickle_kin (hF : Family T B raw st) (i : Nat) : SubKin T B raw (subTrickle i) := by
  intro db n sz db' h hp hd
  unfold subTrickle fillTrickle at h
  split at h
  · cases h
  · next hf =>
    obtain ⟨g1, g2⟩ := freshLayer_kin hF hf hp hd
    split at h
    · cases h
    · next hl2 =>
      obtain ⟨g3, g4⟩ := layers_kin hF _ _ _ _ _ _ hl2 g1 g2
      exact finish_kin hF h g3.weaken g4

theorem growLoop_kin (hF : Family T B raw st) : ∀ (fuel i : Nat) (n : FSN) (db : DB) (n' : FSN) (db' : DB), growLoop fuel i n db = .ok (n', db') →
    NKin T B f n → DKin T B raw db → NKin T B f n' ∧ DKin T B raw db'
  | 0, i, n, db, n', db', h, hn, hd => by
    unfold growLoop at h
    split at h
    · next he => cases h; exact ⟨hn, done_kin he hd⟩
    · cases h
  | fuel + 1, i, n, db, n', db', h, hn, hd => by
    unfold growLoop at h
    split at h
    · next he => cases h; exact ⟨hn, done_kin he hd⟩
    · next he =>
      split at h
      · cases h
      · next hr =>
        obtain ⟨h1, h2⟩ := repeatLoop_kin (subTrickle_kin hF i) _ _ _ _ _ hr hn (done_kin he hd)
        exact growLoop_kin hF fuel _ _ _ _ _ h h1 h2

theorem boundedGrow_kin (hF : Family T B raw st) : ∀ (k i : Nat) (n : FSN) (db : DB) (n' : FSN) (db' : DB), boundedGrow k i n db = .ok (n', db') →
    NKin T B f n → DKin T B raw db → NKin T B f n' ∧ DKin T B raw db'
  | 0, i, n, db, n', db', h, hn, hd => by cases h; exact ⟨hn, hd⟩
  | k + 1, i, n, db, n', db', h, hn, hd => by
    unfold boundedGrow at h
    split at h
    · next he => cases h; exact ⟨hn, done_kin he hd⟩
    · next he =>
      split at h
      · cases h
      · next hr =>
        obtain ⟨h1, h2⟩ := repeatLoop_kin (subTrickle_kin hF i) _ _ _ _ _ hr hn (done_kin he hd)
        exact boundedGrow_kin hF k _ _ _ _ _ h h1 h2

theorem fromDag_kin (hF : Family T B raw st) {d : Bytes} {ls : List Link} {b : Builder} {n : FSN} (h : FSN.fromDag d ls b = .ok n) (ht : T (.proto d ls b)) : NKin T B st n := by
  unfold FSN.fromDag at h
  split at h <;> cases h
  exact ⟨(hF.inv _ _ _ ht).1, hF.same _ _ _ ht, (hF.inv _ _ _ ht).2⟩

theorem appendFillLastChild_kin (hF : Family T B raw st) {rec} (hrec : ∀ n db d n' sz db', rec n db d = .ok ((n', sz), db') → NKin T B st n → DKin T B raw db → NKin T B st n' ∧ DKin T B raw db')
    {n n' : FSN} {depth rep : Nat} {db db' : DB} (h : appendFillLastChild rec n depth rep db = .ok (n', db')) (hn : NKin T B st n) (hd : DKin T B raw db) :
    NKin T B st n' ∧ DKin T B raw db' := by
  unfold appendFillLastChild at h
  split at h
  · cases h; exact ⟨hn, hd⟩
  simp only at h
  split at h
  · cases h
  · next lastChild hg =>
    have hlc : NKin T B st lastChild := by
      unfold FSN.getChild at hg
      split at hg
      · cases hg
      · next l hl =>
        have := hn.links l (List.mem_of_getElem? hl)
        split at hg
        · split at hg
          · next ht => rw [ht] at this; exact fromDag_kin hF hg this
          · cases hg
        · cases hg
    split at h
    · cases h
    · next hr =>
      obtain ⟨h1, h2⟩ := hrec _ _ _ _ _ _ hr hlc hd
      split at h
      · cases h
      · next hrm =>
        have h3 : ∀ f : FSN, n.removeChild (n.numChildren - 1) = .ok f → NKin T B false f := by
          intro f hf
          unfold FSN.removeChild at hf
          split at hf
          · cases hf
          · split at hf
            · cases hf
              refine ⟨hn.builder, by simp, ?_⟩
              intro l hl
              simp only [List.mem_append] at hl
              exact hn.links l (hl.elim List.mem_of_mem_take List.mem_of_mem_drop)
            · cases hf
        split at h
        · cases h
        · next hc =>
          split at h
          · cases h
          · next ha =>
            obtain ⟨h4, h5⟩ := addChild_kin ha h2 (h3 _ hrm) (commit_kin hF hc h1)
            split at h
            · exact repeatLoop_kin (subTrickle_kin hF _) _ _ _ _ _ h h4.weaken h5
            · cases h; exact ⟨h4.weaken, h5⟩

theorem appendRec_kin (hF : Family T B raw st) : ∀ (fuel : Nat) (n : FSN) (db : DB) (d : Int) (n' : FSN) (sz : UInt64) (db' : DB),
    appendRec fuel n db d = .ok ((n', sz), db') → NKin T B st n → DKin T B raw db → NKin T B st n' ∧ DKin T B raw db'
  | 0, n, db, d, n', sz, db', h, hn, hd => by cases h
  | fuel + 1, n, db, d, n', sz, db', h, hn, hd => by
    unfold appendRec at h
    split at h
    · cases h; exact ⟨hn, hd⟩
    split at h
    · next he => cases h; exact ⟨hn, done_kin he hd⟩
    · next he =>
      have hd1 := done_kin he hd
      simp only at h
      split at h
      · cases h
      · next n2 depth db2 hD =>
        have s2 : NKin T B st n2 ∧ DKin T B raw db2 := by
          unfold appendDirect at hD
          split at hD
          · split at hD
            · cases hD
            · next hf => cases hD; exact fillNodeLayer_kin hF hf hn hd1
          · cases hD; exact ⟨hn, hd1⟩
        split at h
        · cases h; exact s2
        split at h
        · cases h
        · next n3 db3 hA =>
          have s3 := appendFillLastChild_kin hF (fun _ _ _ _ _ _ h hn hd => appendRec_kin hF fuel _ _ _ _ _ _ h hn hd) hA s2.1 s2.2
          split at h
          · cases h
          · next hb =>
            cases h
            exact boundedGrow_kin hF _ _ _ _ _ _ hb s3.1 (done_kin (b := db3.done.1) rfl s3.2)

theorem appendRest_kin (hF : Family T B raw st) {fuel h depth rep : Nat} {n : FSN} {db db' : DB} {r : Node} (hr : appendRest fuel h n depth rep db = .ok (r, db'))
    (hn : NKin T B st n) (hd : DKin T B raw db) : T r ∧ DKin T B raw db' := by
  unfold appendRest at hr
  split at hr
  · cases hr
  · next n3 db3 hA =>
    have s3 := appendFillLastChild_kin hF (fun _ _ _ _ _ _ h hn hd => appendRec_kin hF _ _ _ _ _ _ _ h hn hd) hA hn hd
    simp only at hr
    split at hr
    · cases hr
    · next hg =>
      have s4 := growLoop_kin hF _ _ _ _ _ _ hg s3.1 (done_kin (b := db3.done.1) rfl s3.2)
      split at hr
      · cases hr
      · next hc => cases hr; exact ⟨commit_kin hF hc s4.1, s4.2⟩

/-- `Append`: the result and what it stores. -/
theorem append_kin (hF : Family T B raw st) {fuel h : Nat} {base r : Node} {db db' : DB} (hr : append fuel h base db = .ok (r, db'))
    (hb : T base) (hd : DKin T B raw db) : T r ∧ DKin T B raw db' := by
  unfold append at hr
  split at hr
  · split at hr
    · cases hr
    · next d ls b fsn hf =>
      have hn := fromDag_kin hF hf hb
      simp only at hr
      split at hr
      · split at hr
        · cases hr
        · next hL =>
          have s1 := fillNodeLayer_kin hF hL hn hd
          split at hr
          · next he =>
            cases hr
            refine ⟨?_, done_kin he s1.2⟩
            simp only [FSN.getDagNode, s1.1.builder]
            exact hF.proto _ _ s1.1.full s1.1.links
          · next he => exact appendRest_kin hF hr s1.1 (done_kin he s1.2)
      · exact appendRest_kin hF hr hn hd
  · cases hr

end Trickle
end Import
end Unixfs
