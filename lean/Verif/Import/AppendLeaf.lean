import Verif.Import.AppendLemmas

/-! # `trickle.Append` on a file whose only block holds data

The definitions in this file belong to proofs; they model no code.
-/

namespace Unixfs.Import.Trickle
open Unixfs Unixfs.Import Unixfs.Spec

/-- What a successful `Append` makes of a node without links: the new chunks as its children, and the
data of the node itself kept where no reader looks. -/
theorem append_leaf (m : Nat) (hm0 : 0 < m) (fuel h : Nat) (d : Bytes) (b : Builder) (db : DB) {msg : Pb.Data} (hm : db.maxlinks = m)
    (hi : db.Inv) (hu : Pb.Data.unmarshal d = .ok msg) (ht : msg.typ.isSome) (hb : msg.blocksizes = []) {n : Node} {db' : DB}
    (hr : append fuel h (.proto d [] b) db = .ok (n, db')) :
    ∃ ts, n = .proto (addSizes ⟨msg⟩ (ts.map T.size)).bytes (T.toLinks (db.cfg TRaw) ts) b ∧ T.chunksL ts = db.pend ∧
      db.srcEnd = none ∧ (∀ c ∈ db.pend, c.length ≤ blockSizeLimit) := by
  unfold append at hr
  dsimp only at hr
  have hfd : FSN.fromDag d [] b = .ok ⟨[], d, b, ⟨msg⟩⟩ := by simp [FSN.fromDag, FSNode.fromBytes, hu]
  rw [hfd] at hr
  set fsn : FSN := ⟨[], d, b, ⟨msg⟩⟩ with hfsn
  have hn0 : fsn.numChildren = 0 := by simp [FSN.numChildren, FSNode.numChildren, hfsn, hb]
  have hinfo : depthInfo fsn db.maxlinks = (0, 0) := by rw [depthInfo, hn0]; simp [hm, hm0]
  simp only [hinfo, if_true] at hr
  have h1 := fillNodeLayer_spec fsn db hi ht
  cases hr1 : DB.fillNodeLayer fsn db with
  | error e => rw [hr1] at hr; cases hr
  | ok q =>
    obtain ⟨fsn1, db1⟩ := q
    rw [hr1] at h1 hr
    simp only at hr
    obtain ⟨ts1, cs1, new1, d1, ha1, hf1, hc1, -, hq1, hn1, hrf1⟩ := h1
    have ht1 : fsn1.file.format.typ.isSome := by rw [hf1]; simp [FSN.addTrees, addSizes_typ, hfsn, ht]
    have hdi := done_iff db1 ha1.inv
    have hda := done_adv db1 ha1.inv
    have hdm := done_more db1 ha1.inv
    cases hdn : db1.done with
    | mk bb db2 =>
      rw [hdn] at hdi hda hdm hr
      cases bb with
      | true =>
        simp only at hr
        cases hr
        have hnm : ¬db1.More := hdi.mp rfl
        obtain ⟨hp, he⟩ : db1.pend = [] ∧ db1.srcEnd = none := by unfold DB.More at hnm; rw [not_not] at hnm; exact hnm
        have hcs : cs1 = db.pend := by rw [ha1.pend, hp]; simp
        refine ⟨ts1, ?_, by rw [hc1, hcs], by rw [← ha1.srcEnd]; exact he, by rw [← hcs]; exact ha1.lim⟩
        rw [FSN.getDagNode, fillNodeLayer_commit hr1 ht1, hf1]
        simp [FSN.addTrees, hfsn]
      | false =>
        simp only at hr
        unfold appendRest appendFillLastChild at hr
        have hlen : fsn1.numChildren ≤ db2.maxlinks := by
          have := hq1.2.1
          rw [hda.maxlinks, ha1.maxlinks, hf1]
          simp only [FSN.numChildren, FSNode.numChildren, FSN.addTrees, addSizes_format, hfsn, hb]
          simp; omega
        rw [if_pos hlen] at hr
        simp only at hr
        have ha2 := ha1.trans hda
        have hda3 := done_adv db2 hda.inv
        have ha3 := ha2.trans hda3
        generalize hD : (if db2.done.1 = true then 1 else 1 + 1) = D at hr
        have hg := growLoop_spec m hm0 fuel D fsn1 db2.done.2 (by rw [ha3.maxlinks, hm]) hda3.inv
        cases hr2 : growLoop fuel D fsn1 db2.done.2 with
        | error e => rw [hr2] at hr; cases hr
        | ok q =>
          obtain ⟨fsn2, db3⟩ := q
          rw [hr2] at hr hg
          simp only at hr
          obtain ⟨ts2, cs2, new2, d2, ha4, hf2, hc2, -, ⟨hnm, -⟩, -, -⟩ := hg.2.resolve_left (by simp)
          have ha5 := ha3.trans ha4
          obtain ⟨hp, he⟩ : db3.pend = [] ∧ db3.srcEnd = none := by unfold DB.More at hnm; rw [not_not] at hnm; exact hnm
          have hcs : cs1 ++ cs2 = db.pend := by rw [ha5.pend, hp]; simp
          cases hcm : fsn2.commit with
          | error e => rw [hcm] at hr; cases hr
          | ok q =>
            obtain ⟨n', f'⟩ := q
            rw [hcm] at hr
            cases hr
            refine ⟨ts1 ++ ts2, ?_, by rw [T.chunksL_append, hc1, hc2, hcs], by rw [← ha5.srcEnd]; exact he, ?_⟩
            · have ht2 : fsn2.file.format.typ.isSome := by rw [hf2]; simp [FSN.addTrees, addSizes_typ, ht1]
              rw [FSN.commit] at hcm
              have hcfg : db2.done.2.cfg TRaw = db.cfg TRaw := ha3.cfg TRaw
              rw [hf2, hf1, hcfg] at hcm
              simp only [FSN.addTrees, hfsn, List.nil_append] at hcm
              rw [← addSizes_append, ← List.map_append, ← T.toLinks_append] at hcm
              split at hcm
              · cases hcm
              · rename_i bs hbs
                cases hcm
                rw [FSN.getDagNode]
                simp only [FSNode.bytes, hbs]
            · rw [← hcs]
              intro c hc
              exact ha5.lim c (by simpa using hc)

end Unixfs.Import.Trickle
