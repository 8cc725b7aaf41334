import Verif.Import.FailCrash
import Verif.Import.Closed
import Verif.Import.AppendLemmas
import Verif.Import.Calm

/-! # Which failures of `Append` leave the node as it was (C99)

The definitions in this file belong to proofs; they model no code.
-/

namespace Unixfs

theorem unmarshal_typ {b : Bytes} {d : Pb.Data} (h : Pb.Data.unmarshal b = .ok d) : d.typ.isSome := by
  unfold Pb.Data.unmarshal at h
  split at h
  · cases h
  · split at h
    · cases h
    · next hn => cases h; cases hd : d.typ <;> simp_all

namespace Import
open Unixfs.Spec

/-- The node has a type. -/
def Typed (n : FSN) : Prop := n.file.format.typ.isSome

theorem fromDag_typed {d ls b} {n : FSN} (h : FSN.fromDag d ls b = .ok n) : Typed n := by
  unfold FSN.fromDag FSNode.fromBytes at h
  split at h
  · cases h
  · next hf =>
    cases h
    split at hf
    · cases hf
    · next hu => cases hf; exact unmarshal_typ hu

theorem removeChild_typed {n f : FSN} {i : Nat} (h : n.removeChild i = .ok f) (hn : Typed n) : Typed f := by
  unfold FSN.removeChild FSNode.removeBlockSize at h
  split at h
  · cases h
  · next hf =>
    split at h
    · cases h
      split at hf
      · cases hf
      · cases hf; exact hn
    · cases h

theorem addChild_typed {n n' : FSN} {b : Built} {sz : UInt64} {db db' : DB} (h : n.addChild b sz db = .ok (n', db')) (hn : Typed n) : Typed n' := by
  unfold FSN.addChild at h
  dsimp only at h
  split at h <;> cases h
  exact hn

theorem commit_typed {n n' : FSN} {k : Node} (h : n.commit = .ok (k, n')) (hn : Typed n) : Typed n' := by
  unfold FSN.commit at h
  split at h <;> cases h
  exact hn

theorem typed_closed : Closed (fun _ => True) Typed where
  new := fun _ => rfl
  child := fun h hn _ => addChild_typed h hn
  commit := fun h hn => ⟨trivial, commit_typed h hn⟩
  leaf := fun _ => trivial
  load := fun h _ => fromDag_typed h
  links := fun _ _ _ => trivial
  remove := fun h hn => removeChild_typed h hn

theorem Typed.commit {n : FSN} (h : Typed n) (e : Err) : n.commit ≠ .error e := by
  rw [FSN.commit_of_typ n h]; exact fun h => by cases h

/-- The builder went on. -/
def Went (db db' : DB) : Prop := ∃ cs new, Adv db cs new db'

theorem Went.trans {a b c : DB} (h : Went a b) (h' : Went b c) : Went a c := by
  obtain ⟨_, _, h⟩ := h
  obtain ⟨_, _, h'⟩ := h'
  exact ⟨_, _, h.trans h'⟩

theorem Went.inv {a b : DB} (h : Went a b) : b.Inv := by obtain ⟨_, _, h⟩ := h; exact h.inv
theorem Went.wide {a b : DB} (h : Went a b) : b.maxlinks = a.maxlinks := by obtain ⟨_, _, h⟩ := h; exact h.maxlinks
theorem Went.fail {a b : DB} {e : Err} (h : Went a b) (hf : Fail b e) : Fail a e := by obtain ⟨_, _, h⟩ := h; exact hf.of_adv h
theorem Went.le {a b : DB} (h : Went a b) : b.pend.length ≤ a.pend.length := by
  obtain ⟨cs, _, h⟩ := h
  rw [h.pend, List.length_append]; omega

theorem done_went {db db' : DB} {b : Bool} (h : db.done = (b, db')) (hi : db.Inv) : Went db db' := by
  have := done_adv db hi
  rw [h] at this
  exact ⟨_, _, this⟩

theorem GrowOK.went {Q : List T → Prop → Prop} {fsn fsn' : FSN} {db db' : DB} (h : GrowOK Q fsn db (.ok (fsn', db'))) : Went db db' := by
  obtain ⟨_, cs, new, _, h, _⟩ := h
  exact ⟨cs, new, h⟩

theorem addChild_went {n n' : FSN} {b : Built} {sz : UInt64} {db db' : DB} (h : n.addChild b sz db = .ok (n', db')) (hi : db.Inv) : Went db db' := by
  unfold FSN.addChild at h
  dsimp only at h
  rcases add_spec db b hi with ⟨db2, h2, ha⟩ | ⟨h2, _⟩
  · rw [h2] at h; cases h; exact ⟨_, _, ha⟩
  · rw [h2] at h; cases h

namespace Trickle

theorem repeatLoop_went {i k : Nat} {n n' : FSN} {db db' : DB} (hm : 0 < db.maxlinks) (hi : db.Inv) (h : repeatLoop (subTrickle i) k n db = .ok (n', db')) : Went db db' := by
  have := repeat_spec (subTrickle_spec db.maxlinks hm i) k n db rfl hi
  rw [h] at this
  exact this.went

theorem repeatLoop_fail {i k : Nat} {n : FSN} {db : DB} {e : Err} (hm : 0 < db.maxlinks) (hi : db.Inv) (h : repeatLoop (subTrickle i) k n db = .error e) : Fail db e := by
  have := repeat_spec (subTrickle_spec db.maxlinks hm i) k n db rfl hi
  rw [h] at this
  exact this

theorem fillNodeLayer_went {n n' : FSN} {db db' : DB} (hi : db.Inv) (ht : Typed n) (h : DB.fillNodeLayer n db = .ok (n', db')) : Went db db' := by
  have := fillNodeLayer_spec n db hi ht
  rw [h] at this
  exact this.went

theorem boundedGrow_went {i k : Nat} {n n' : FSN} {db db' : DB} (hm : 0 < db.maxlinks) (hi : db.Inv) (h : boundedGrow k i n db = .ok (n', db')) : Went db db' := by
  have := boundedGrow_spec db.maxlinks hm k i n db rfl hi
  rw [h] at this
  exact this.went

theorem getChild_typed {n c : FSN} {i : Nat} {g : Node → Bool} (hg : n.getChild i g = .ok c) : Typed c := by
  unfold FSN.getChild at hg
  split at hg
  · cases hg
  · split at hg
    · split at hg
      · exact fromDag_typed hg
      · cases hg
    · cases hg

theorem appendFillLastChild_went {rec : FSN → DB → Int → Except Err ((FSN × UInt64) × DB)}
    (hrec : ∀ n db d n' sz db', rec n db d = .ok ((n', sz), db') → 0 < db.maxlinks → db.Inv → Typed n → Went db db')
    {n n' : FSN} {depth rep : Nat} {db db' : DB} (h : appendFillLastChild rec n depth rep db = .ok (n', db')) (hm : 0 < db.maxlinks) (hi : db.Inv) :
    Went db db' := by
  unfold appendFillLastChild at h
  split at h
  · cases h; exact ⟨_, _, Adv.refl db hi⟩
  simp only at h
  split at h
  · cases h
  · next lastChild hg =>
    split at h
    · cases h
    · next hr =>
      have w1 := hrec _ _ _ _ _ _ hr hm hi (getChild_typed hg)
      split at h
      · cases h
      · split at h
        · cases h
        · split at h
          · cases h
          · next ha =>
            have w2 := w1.trans (addChild_went ha w1.inv)
            split at h
            · exact w2.trans (repeatLoop_went (by rw [w2.wide]; exact hm) w2.inv h)
            · cases h; exact w2

theorem appendRec_went : ∀ (fuel : Nat) (n : FSN) (db : DB) (d : Int) (n' : FSN) (sz : UInt64) (db' : DB),
    appendRec fuel n db d = .ok ((n', sz), db') → 0 < db.maxlinks → db.Inv → Typed n → Went db db'
  | 0, n, db, d, n', sz, db', h, hm, hi, ht => by cases h
  | fuel + 1, n, db, d, n', sz, db', h, hm, hi, ht => by
    unfold appendRec at h
    split at h
    · cases h; exact ⟨_, _, Adv.refl _ hi⟩
    split at h
    · next he => cases h; exact done_went he hi
    · next db1 he =>
      have w1 := done_went he hi
      simp only at h
      split at h
      · cases h
      · next n2 depth db2 hD =>
        have w2 : Went db1 db2 := by
          unfold appendDirect at hD
          split at hD
          · split at hD
            · cases hD
            · next hf => cases hD; exact fillNodeLayer_went w1.inv ht hf
          · cases hD; exact ⟨_, _, Adv.refl _ w1.inv⟩
        have w12 := w1.trans w2
        split at h
        · cases h; exact w12
        split at h
        · cases h
        · next n3 db3 hA =>
          have w3 := w12.trans (appendFillLastChild_went (fun _ _ _ _ _ _ h hm hi ht => appendRec_went fuel _ _ _ _ _ _ h hm hi ht) hA (by rw [w12.wide]; exact hm) w2.inv)
          have w4 := w3.trans (done_went (b := db3.done.1) rfl w3.inv)
          split at h
          · cases h
          · next hb =>
            cases h
            exact w4.trans (boundedGrow_went (by rw [w4.wide]; exact hm) w4.inv hb)

/-- A failure in the last child leaves the node as it is, other failures are those of the builder. -/
theorem appendFillLastChildF_same {h : Nat} {n n' : FSN} {depth rep : Nat} {db db' : DB} {e : Err}
    (hr : appendFillLastChildF (appendRecF h) n depth rep db = (.error e, n', db')) (hm : 0 < db.maxlinks) (hi : db.Inv) :
    n' = n ∨ Fail db e := by
  unfold appendFillLastChildF at hr
  split at hr
  · cases hr
  simp only at hr
  split at hr
  · cases hr; exact .inl rfl
  · next lastChild hg =>
    split at hr
    · cases hr; exact .inl rfl
    · next nc sz db1 hrec =>
      have hrec := appendRec_of hrec
      have w1 := appendRec_went _ _ _ _ _ _ _ hrec hm hi (getChild_typed hg)
      have ht := appendRec_closed typed_closed _ _ _ _ _ _ _ hrec (getChild_typed hg)
      split at hr
      · cases hr; exact .inl rfl
      · split at hr
        · next hc => exact absurd hc (ht.commit _)
        · split at hr
          · next ha =>
            cases hr
            refine .inr (w1.fail (.inr (.inr ?_)))
            unfold FSN.addChildF at ha
            dsimp only at ha
            rcases add_spec db1 ⟨_, none⟩ w1.inv with ⟨db2, h2, _⟩ | ⟨h2, hb⟩
            · rw [h2] at ha; cases ha
            · rw [h2] at ha; cases ha; exact ⟨rfl, hb⟩
          · next ha =>
            have w2 := w1.trans (addChild_went (addChild_of ha) w1.inv)
            split at hr
            · exact .inr (w2.fail (repeatLoop_fail (by rw [w2.wide]; exact hm) w2.inv ((repeatLoopF_eq (subTrickleF_eq _) _ _ _).symm.trans (by rw [hr]; rfl))))
            · cases hr

theorem appendRestF_same {fuel h depth rep : Nat} {n n' : FSN} {db db' : DB} {e : Err}
    (hr : appendRestF fuel h n depth rep db = (.error e, n', db')) (hm : 0 < db.maxlinks) (hi : db.Inv) (ht : Typed n) :
    (n' = n ∧ db.maxlinks < n.numChildren) ∨ Fail db e ∨ (e = .outOfFuel ∧ fuel ≤ db.pend.length) := by
  unfold appendRestF at hr
  split at hr
  · next hA =>
    cases hr
    have hbig : db.maxlinks < n.numChildren := by
      by_contra hle
      unfold appendFillLastChildF at hA
      rw [if_pos (by omega)] at hA
      cases hA
    rcases appendFillLastChildF_same hA hm hi with h | h
    · exact .inl ⟨h, hbig⟩
    · exact .inr (.inl h)
  · next n3 db3 hA =>
    have hA' := appendFillLastChild_of hA
    have w3 := appendFillLastChild_went (fun _ _ _ _ _ _ h hm hi ht => appendRec_went _ _ _ _ _ _ _ h hm hi ht) hA' hm hi
    have t3 := appendFillLastChild_closed typed_closed (fun _ _ _ _ _ _ h hn => appendRec_closed typed_closed _ _ _ _ _ _ _ h hn) hA' ht
    have w4 := w3.trans (done_went (b := db3.done.1) rfl w3.inv)
    simp only at hr
    split at hr
    · next hg =>
      cases hr
      have hg' : growLoop fuel (if db3.done.1 = true then depth else depth + 1) n3 db3.done.2 = .error e := by
        rw [← growLoopF_eq, hg]; rfl
      have hs := growLoop_spec db.maxlinks hm fuel (if db3.done.1 = true then depth else depth + 1) n3 db3.done.2 w4.wide w4.inv
      rw [hg'] at hs
      obtain ⟨h1, h2⟩ := hs
      rcases h2 with h2 | h2
      · cases h2
        rcases h1 with h1 | h1
        · exact .inr (.inl (w4.fail h1))
        · exact .inr (.inr ⟨rfl, Nat.le_trans h1 w4.le⟩)
      · exact .inr (.inl (w4.fail h2))
    · next hg =>
      have t4 := growLoop_closed typed_closed _ _ _ _ _ _ (growLoop_of hg) t3
      split at hr
      · next hc => exact absurd hc (t4.commit _)
      · cases hr

/-- A failed `Append` leaves the node as it was, unless a chunk was too large, the splitter failed or the DAG
service refused a block. -/
theorem appendF_same {fuel h : Nat} {base r : Node} {db db' : DB} {e : Err} (hr : appendF fuel h base db = (.error e, r, db'))
    (hm : 0 < db.maxlinks) (hi : db.Inv) : r = base ∨ Fail db e ∨ (e = .outOfFuel ∧ fuel ≤ db.pend.length) := by
  unfold appendF at hr
  split at hr
  · split at hr
    · cases hr; exact .inl rfl
    · next d ls b fsn hf =>
      have ht := fromDag_typed hf
      simp only at hr
      split at hr
      · next h0 =>
        split at hr
        · next hL =>
          cases hr
          have := fillNodeLayer_spec fsn db hi ht
          rw [← fillNodeLayerF_eq, hL] at this
          exact .inr (.inl this)
        · next fsn1 db1 hL =>
          have hL := fillNodeLayer_of hL
          have w1 := fillNodeLayer_went hi ht hL
          have t1 := (fillNodeLayer_closed typed_closed hL ht).1
          split at hr
          · cases hr
          · next db2 he =>
            have w2 := w1.trans (done_went he w1.inv)
            rcases hx : appendRestF fuel h fsn1 1 (depthInfo fsn db.maxlinks).2 db2 with ⟨r', n5, db5⟩
            rw [hx] at hr
            cases hr
            rcases appendRestF_same hx (by rw [w2.wide]; exact hm) w2.inv t1 with ⟨_, hb⟩ | h | ⟨h, h'⟩
            · exfalso
              have hs := fillNodeLayer_spec fsn db hi ht
              rw [hL] at hs
              obtain ⟨ts, _, _, dd, _, hf1, _, _, hq, _⟩ := hs
              have := depthInfo_zero h0
              have h2 := hq.2.1
              rw [hf1, w2.wide] at hb
              rw [show ({ FSN.addTrees (db.cfg TRaw) fsn ts with dagData := dd } : FSN).numChildren = (FSN.addTrees (db.cfg TRaw) fsn ts).numChildren from rfl, FSN.numChildren_addTrees] at hb
              omega
            · exact .inr (.inl (w2.fail h))
            · exact .inr (.inr ⟨h, Nat.le_trans h' w2.le⟩)
      · rcases hx : appendRestF fuel h fsn (depthInfo fsn db.maxlinks).1 (depthInfo fsn db.maxlinks).2 db with ⟨r', n5, db5⟩
        rw [hx] at hr
        cases hr
        rcases appendRestF_same hx hm hi ht with ⟨rfl, _⟩ | h | h
        · left
          unfold FSN.fromDag at hf
          split at hf <;> cases hf
          rfl
        · exact .inr (.inl h)
        · exact .inr (.inr h)
  · cases hr; exact .inl rfl

end Trickle
end Import
end Unixfs
