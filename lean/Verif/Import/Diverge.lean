import Verif.Import.TrickleLemmas

/-! # Non-termination for degenerate `Maxlinks`

The definitions in this file belong to proofs; they model no code.
-/

namespace Unixfs.Import

theorem add_none (db : DB) (b : Built) (hi : db.Inv) (hb : db.addBudget = none) : ∃ db', db.add b = .ok db' ∧ Adv db [] [b] db' := by
  rcases add_spec db b hi with h | ⟨_, h⟩
  · exact h
  · exact absurd hb h

namespace Balanced

/-- With at most one link per node the loop of `Layout` adds levels for ever. -/
theorem layoutLoop_diverges (fuel : Nat) : ∀ (d : Nat) (root : Built) (fs : UInt64) (db : DB), db.maxlinks ≤ 1 → db.Inv →
    db.More → db.addBudget = none → layoutLoop fuel d root fs db = .error .outOfFuel := by
  induction fuel with
  | zero =>
    intro d root fs db hm hi hmore hb
    unfold layoutLoop
    have hd := done_iff db hi
    cases hdn : db.done with
    | mk b db1 =>
      rw [hdn] at hd
      cases b with
      | true => exact absurd hmore (hd.mp rfl)
      | false => rfl
  | succ fuel ih =>
    intro d root fs db hm hi hmore hb
    unfold layoutLoop
    have hd := done_iff db hi
    have ha := done_adv db hi
    cases hdn : db.done with
    | mk b db1 =>
      rw [hdn] at hd ha
      cases b with
      | true => exact absurd hmore (hd.mp rfl)
      | false =>
        obtain ⟨db2, h2, ha2⟩ := add_none db1 root ha.inv (ha.budget hb)
        have ha12 := ha.trans ha2
        simp only [FSN.addChild, h2]
        set newRoot : FSN := { FSN.new db1 TFile with
          links := (FSN.new db1 TFile).links ++ [makeLink [] root.node]
          file := (FSN.new db1 TFile).file.addBlockSize fs } with hnr
        have hnum : newRoot.numChildren = 1 := rfl
        have hk : db2.maxlinks - newRoot.numChildren = 0 := by rw [hnum, ha12.maxlinks]; omega
        have htyp : newRoot.file.format.typ.isSome := rfl
        have hfill : fillNodeRec d (some newRoot) db2 = .ok ((⟨.proto newRoot.file.bytes newRoot.links newRoot.builder, none⟩, newRoot.fileSize), db2) := by
          rw [fillNodeRec_eq]
          unfold fillWith
          simp only [Option.getD_some, hk, fillLoop, FSN.commit_of_typ _ htyp]
        rw [hfill]
        exact ih _ _ _ db2 (by rw [ha12.maxlinks]; exact hm) ha2.inv ((adv_nil_more ha12).mpr hmore) (ha12.budget hb)

end Balanced

namespace Trickle

/-- `Quiet f`: a step that consumes nothing. -/
def Quiet (db : DB) : Except Err (FSN × DB) → Prop
  | .ok (fsn', db') => fsn'.file.format.typ.isSome ∧ ∃ new, Adv db [] new db'
  | .error _ => False

theorem fillNodeLayer_quiet (fsn : FSN) (db : DB) (hm : db.maxlinks = 0) (hi : db.Inv) (ht : fsn.file.format.typ.isSome) :
    Quiet db (DB.fillNodeLayer fsn db) := by
  unfold DB.fillNodeLayer
  simp only [hm, Nat.zero_sub, DB.fillLayerLoop, FSN.commit_of_typ _ ht]
  exact ⟨ht, [], Adv.refl db hi⟩

theorem repeat_quiet (i : Nat)
    (hsub : ∀ db : DB, db.maxlinks = 0 → db.Inv → db.More → db.addBudget = none →
      ∃ n sz db' new, subTrickle i db = .ok ((n, sz), db') ∧ Adv db [] new db')
    (k : Nat) : ∀ (fsn : FSN) (db : DB), fsn.file.format.typ.isSome → db.maxlinks = 0 → db.Inv → db.More → db.addBudget = none →
      Quiet db (repeatLoop (subTrickle i) k fsn db) := by
  induction k with
  | zero => intro fsn db ht hm hi hmore hb; exact ⟨ht, [], Adv.refl db hi⟩
  | succ k ih =>
    intro fsn db ht hm hi hmore hb
    unfold repeatLoop
    have hd := done_iff db hi
    have ha := done_adv db hi
    cases hdn : db.done with
    | mk b db1 =>
      rw [hdn] at hd ha
      cases b with
      | true => exact absurd hmore (hd.mp rfl)
      | false =>
        obtain ⟨n, sz, db2, new, h2, ha2⟩ := hsub db1 (by rw [ha.maxlinks, hm]) ha.inv
          ((Balanced.adv_nil_more ha).mpr hmore) (ha.budget hb)
        have ha12 := ha.trans ha2
        obtain ⟨db3, h3, ha3⟩ := add_none db2 ⟨n, none⟩ ha2.inv (ha12.budget hb)
        have ha13 := ha12.trans ha3
        simp only [h2, FSN.addChild, h3]
        have := ih { fsn with links := fsn.links ++ [makeLink [] n], file := fsn.file.addBlockSize sz } db3
          (by simpa [FSNode.addBlockSize, FSNode.updateFilesize] using ht) (by rw [ha13.maxlinks, hm]) ha3.inv
          ((Balanced.adv_nil_more ha13).mpr hmore) (ha13.budget hb)
        cases hr : repeatLoop (subTrickle i) k { fsn with links := fsn.links ++ [makeLink [] n], file := fsn.file.addBlockSize sz } db3 with
        | error e => rw [hr] at this; exact this
        | ok q =>
          obtain ⟨fsn', db'⟩ := q
          rw [hr] at this
          obtain ⟨h, new', ha4⟩ := this
          exact ⟨h, _, ha13.trans ha4⟩

theorem layers_quiet (d : Nat)
    (hsub : ∀ i, i < d → ∀ db : DB, db.maxlinks = 0 → db.Inv → db.More → db.addBudget = none →
      ∃ n sz db' new, subTrickle i db = .ok ((n, sz), db') ∧ Adv db [] new db') :
    ∀ (fsn : FSN) (db : DB), fsn.file.format.typ.isSome → db.maxlinks = 0 → db.Inv → db.More → db.addBudget = none →
      Quiet db (layers d fsn db) := by
  induction d with
  | zero => intro fsn db ht hm hi hmore hb; exact ⟨ht, [], Adv.refl db hi⟩
  | succ d ih =>
    intro fsn db ht hm hi hmore hb
    have ih := ih (fun i h => hsub i (by omega)) fsn db ht hm hi hmore hb
    rw [fillTrickle_layers]
    cases hl : layers d fsn db with
    | error e => rw [hl] at ih; exact ih
    | ok q =>
      obtain ⟨fsn1, db1⟩ := q
      rw [hl] at ih
      obtain ⟨ht1, new1, ha1⟩ := ih
      simp only
      split
      · exact ⟨ht1, new1, ha1⟩
      · have hd := done_iff db1 ha1.inv
        have ha := done_adv db1 ha1.inv
        have hmore1 := (Balanced.adv_nil_more ha1).mpr hmore
        cases hdn : db1.done with
        | mk b db2 =>
          rw [hdn] at hd ha
          cases b with
          | true => exact absurd hmore1 (hd.mp rfl)
          | false =>
            have ha12 := ha1.trans ha
            have := repeat_quiet d (hsub d (by omega)) depthRepeat fsn1 db2 ht1 (by rw [ha12.maxlinks, hm]) ha.inv
              ((Balanced.adv_nil_more ha12).mpr hmore) (ha12.budget hb)
            simp only
            cases hr : repeatLoop (subTrickle d) depthRepeat fsn1 db2 with
            | error e => rw [hr] at this; exact this
            | ok q =>
              obtain ⟨fsn', db'⟩ := q
              rw [hr] at this
              obtain ⟨h, new', ha4⟩ := this
              exact ⟨h, _, ha12.trans ha4⟩

theorem subTrickle_quiet (i : Nat) : ∀ db : DB, db.maxlinks = 0 → db.Inv → db.More → db.addBudget = none →
      ∃ n sz db' new, subTrickle i db = .ok ((n, sz), db') ∧ Adv db [] new db' := by
  induction i using Nat.strong_induction_on with
  | _ i ih =>
    intro db hm hi hmore hb
    unfold subTrickle fillTrickle
    have h1 := fillNodeLayer_quiet (FSN.new db TFile) db hm hi rfl
    cases hr : DB.fillNodeLayer (FSN.new db TFile) db with
    | error e => rw [hr] at h1; exact h1.elim
    | ok q =>
      obtain ⟨fsn1, db1⟩ := q
      rw [hr] at h1
      obtain ⟨ht1, new1, ha1⟩ := h1
      have h2 := layers_quiet i ih fsn1 db1 ht1 (by rw [ha1.maxlinks, hm]) ha1.inv
        ((Balanced.adv_nil_more ha1).mpr hmore) (ha1.budget hb)
      simp only
      cases hl : layers i fsn1 db1 with
      | error e => rw [hl] at h2; exact h2.elim
      | ok q =>
        obtain ⟨fsn2, db2⟩ := q
        rw [hl] at h2
        obtain ⟨ht2, new2, ha2⟩ := h2
        simp only [finish, FSN.commit_of_typ _ ht2]
        exact ⟨_, _, _, _, rfl, ha1.trans ha2⟩

theorem growLoop_diverges (fuel : Nat) : ∀ (i : Nat) (fsn : FSN) (db : DB), fsn.file.format.typ.isSome → db.maxlinks = 0 → db.Inv →
    db.More → db.addBudget = none → growLoop fuel i fsn db = .error .outOfFuel := by
  induction fuel with
  | zero =>
    intro i fsn db ht hm hi hmore hb
    unfold growLoop
    have hd := done_iff db hi
    cases hdn : db.done with
    | mk b db1 =>
      rw [hdn] at hd
      cases b with
      | true => exact absurd hmore (hd.mp rfl)
      | false => rfl
  | succ fuel ih =>
    intro i fsn db ht hm hi hmore hb
    unfold growLoop
    have hd := done_iff db hi
    have ha := done_adv db hi
    cases hdn : db.done with
    | mk b db1 =>
      rw [hdn] at hd ha
      cases b with
      | true => exact absurd hmore (hd.mp rfl)
      | false =>
        have := repeat_quiet i (subTrickle_quiet i) depthRepeat fsn db1 ht (by rw [ha.maxlinks, hm]) ha.inv
          ((Balanced.adv_nil_more ha).mpr hmore) (ha.budget hb)
        simp only
        cases hr : repeatLoop (subTrickle i) depthRepeat fsn db1 with
        | error e => rw [hr] at this; exact this.elim
        | ok q =>
          obtain ⟨fsn', db'⟩ := q
          rw [hr] at this
          obtain ⟨h, new', ha4⟩ := this
          have ha14 := ha.trans ha4
          exact ih (i + 1) fsn' db' h (by rw [ha14.maxlinks, hm]) ha4.inv ((Balanced.adv_nil_more ha14).mpr hmore) (ha14.budget hb)

theorem layout_diverges (fuel : Nat) (db : DB) (hm : db.maxlinks = 0) (hi : db.Inv) (hmore : db.More) (hb : db.addBudget = none) :
    layout fuel db = .error .outOfFuel := by
  unfold layout
  have h1 := fillNodeLayer_quiet (FSN.new db TFile) db hm hi rfl
  cases hr : DB.fillNodeLayer (FSN.new db TFile) db with
  | error e => rw [hr] at h1; exact h1.elim
  | ok q =>
    obtain ⟨fsn1, db1⟩ := q
    rw [hr] at h1
    obtain ⟨ht1, new1, ha1⟩ := h1
    simp only
    rw [growLoop_diverges fuel 1 fsn1 db1 ht1 (by rw [ha1.maxlinks, hm]) ha1.inv ((Balanced.adv_nil_more ha1).mpr hmore) (ha1.budget hb)]

end Trickle
end Unixfs.Import
