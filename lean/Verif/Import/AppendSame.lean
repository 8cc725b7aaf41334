import Verif.Import.BlockLen
import Verif.Import.AppendLemmas

/-!
# When `Append` builds the DAG that importing everything would build

Lemmas for C102. The definitions in this file belong to proofs; they model no code.
-/

namespace Unixfs.Import

/-- The node under construction whose children are the trees `ts`. -/
def FSN.over (c : Cfg) (ts : List T) (d : Bytes) : FSN :=
  ⟨T.toLinks c ts, d, c.pbBuilder, addSizes (FSNode.new TFile) (ts.map T.size)⟩

theorem addSizes_new (ss : List UInt64) : addSizes (FSNode.new TFile) ss = ⟨{ typ := some TFile, filesize := some ss.sum, blocksizes := ss }⟩ := by
  have : (addSizes (FSNode.new TFile) ss).format = { typ := some TFile, filesize := some ss.sum, blocksizes := ss } := by
    rw [addSizes_format]
    by_cases h : ss = []
    · subst h; rfl
    · simp [h, FSNode.new, FSNode.updateFilesize, Pb.Data.getFilesize]
  cases hx : addSizes (FSNode.new TFile) ss with
  | mk f => rw [hx] at this; simp only at this; rw [this]

namespace FSN

theorem over_typ (c : Cfg) (ts : List T) (d : Bytes) : (over c ts d).file.format.typ.isSome := by
  simp only [over]; rw [addSizes_typ]; rfl

theorem over_num (c : Cfg) (ts : List T) (d : Bytes) : (over c ts d).numChildren = ts.length := by
  simp [over, numChildren, FSNode.numChildren, addSizes_new]

theorem over_add (c : Cfg) (a b : List T) (d d' : Bytes) : ({ (over c a d).addTrees c b with dagData := d' } : FSN) = over c (a ++ b) d' := by
  simp [over, addTrees, T.toLinks_append, addSizes]

theorem over_add' (c : Cfg) (a b : List T) (d : Bytes) : (over c a d).addTrees c b = over c (a ++ b) d := by
  simp [over, addTrees, T.toLinks_append, addSizes]

theorem over_commit (c : Cfg) (ts : List T) (d : Bytes) :
    (over c ts d).commit = .ok ((T.node ts).toNode c, over c ts (addSizes (FSNode.new TFile) (ts.map T.size)).bytes) := by
  rw [commit_of_typ _ (over_typ c ts d)]; rfl

theorem over_size (c : Cfg) (ts : List T) (d : Bytes) : (over c ts d).fileSize = (T.node ts).size := by
  simp only [over, fileSize]
  rw [fileSize_addSizes, sum_ofNat]; rfl

theorem fromDag_node (c : Cfg) (ts : List T) :
    fromDag (addSizes (FSNode.new TFile) (ts.map T.size)).bytes (T.toLinks c ts) c.pbBuilder =
      .ok (over c ts (addSizes (FSNode.new TFile) (ts.map T.size)).bytes) := by
  unfold fromDag FSNode.fromBytes
  rw [bytes_addSizes]
  simp only [over, addSizes_new]

theorem toLinks_length (c : Cfg) (ts : List T) : (T.toLinks c ts).length = ts.length := by
  induction ts with
  | nil => rfl
  | cons t ts ih => simp [T.toLinks, ih]

theorem over_getChild (c : Cfg) (pre us : List T) (d : Bytes) (canGet : Node → Bool) {x : FSN}
    (h : (over c (pre ++ [.node us]) d).getChild pre.length canGet = .ok x) :
    x = over c us (addSizes (FSNode.new TFile) (us.map T.size)).bytes := by
  unfold getChild at h
  have hl : (over c (pre ++ [.node us]) d).links[pre.length]? = some (makeLink [] ((T.node us).toNode c)) := by
    simp only [over, T.toLinks_append]
    rw [List.getElem?_append_right (by rw [toLinks_length]), toLinks_length]
    simp [T.toLinks]
  rw [hl] at h
  dsimp only at h
  split at h
  · simp only [makeLink, T.toNode, Link.target] at h
    rw [fromDag_node] at h; cases h; rfl
  · cases h

theorem over_removeChild (c : Cfg) (pre : List T) (t : T) (d : Bytes) :
    (over c (pre ++ [t]) d).removeChild pre.length = .ok (over c pre d) := by
  unfold removeChild FSNode.removeBlockSize
  simp only [over, addSizes_new]
  have : (List.map T.size (pre ++ [t]))[pre.length]? = some t.size := by simp
  simp only [this, FSNode.updateFilesize, Pb.Data.getFilesize]
  rw [if_pos (by simp [T.toLinks_append, toLinks_length, T.toLinks])]
  have h1 : (T.toLinks c (pre ++ [t])).take pre.length = T.toLinks c pre := by
    rw [T.toLinks_append, List.take_left' (toLinks_length c pre)]
  have h2 : (T.toLinks c (pre ++ [t])).drop (pre.length + 1) = [] := by
    rw [List.drop_eq_nil_iff]; simp [T.toLinks_append, toLinks_length, T.toLinks]
  rw [h1, h2]
  simp only [List.append_nil, Except.ok.injEq, FSN.mk.injEq, true_and, FSNode.mk.injEq, Pb.Data.mk.injEq]
  refine ⟨?_, ?_⟩ <;> simp [UInt64.add_assoc, UInt64.add_right_neg]

end FSN

namespace Trickle

theorem subTrickle_zero (db : DB) : subTrickle 0 db = subTrickle 1 db := by
  unfold subTrickle fillTrickle
  simp [layers]

/-- Sub-graphs of the first layer, in any number. -/
theorem repeatFirst {m : Nat} (hm0 : 0 < m) (k i : Nat) (hk : m ≤ i ∧ i + k ≤ m + depthRepeat) (fsn : FSN) (db : DB) (hm : db.maxlinks = m) (hi : db.Inv) :
    GrowOK (fun ts more => LG m i ts more ∧ ts.length ≤ k ∧ (ts.length = k ∨ ¬more))
      fsn db (repeatLoop (subTrickle 0) k fsn db) := by
  rw [show subTrickle 0 = subTrickle 1 from funext subTrickle_zero, repeatLoop_eq]
  have h := fillLoop_spec TRaw (fun t more => TG m 1 t ∧ (more → TF m 1 t)) (wrapSub (subTrickle 1)) (fun db => db.maxlinks = m)
    (fun h a => by rw [a.maxlinks, h]) (fun db h1 h2 h3 => subTrickleFill m hm0 0 db h1 h2 h3) (fun t m hm h => ⟨h.1, fun _ => h.2 hm⟩) k fsn db hm hi
  refine GrowOK.imp (fun ts mo h => ⟨lg_const h.2.2.2 (fun j hj => ?_), h.1, h.2.1⟩) (LoopOK.grow h)
  have := h.1
  unfold kd depthRepeat at *
  rw [if_neg (by omega)]
  omega

/-- A tree of depth bound 1 has only leaves. -/
theorem tg_one {m : Nat} {t : T} (h : TG m 1 t) : ∃ us, t = .node us ∧ us ≠ [] ∧ us.length ≤ m ∧ ∀ u ∈ us, ∃ c, u = .leaf c := by
  cases h with
  | node _ pre last hl h hlast =>
    simp only [Nat.mul_zero, Nat.add_zero] at hl
    refine ⟨_, rfl, by simp, by simp; omega, ?_⟩
    intro u hu
    rw [List.mem_append] at hu
    rcases hu with hu | hu
    · obtain ⟨i, hi⟩ := List.mem_iff_getElem?.mp hu
      have hlt : i < pre.length := by by_contra hc; rw [List.getElem?_eq_none (by omega)] at hi; cases hi
      have := h i u hi
      rw [show kd m i = 0 by unfold kd; rw [if_pos (by omega)]] at this
      cases this with
      | leaf c => exact ⟨c, rfl⟩
    · simp only [List.mem_singleton] at hu
      subst hu
      rw [show kd m pre.length = 0 by unfold kd; rw [if_pos (by omega)]] at hlast
      cases hlast with
      | leaf c => exact ⟨c, rfl⟩

theorem tf_one {m : Nat} {us : List T} (hl : us.length = m) (h : ∀ u ∈ us, ∃ c, u = .leaf c) : TF m 1 (.node us) := by
  refine .node 0 us (by simpa using hl) (fun i t hi => ?_)
  obtain ⟨c, rfl⟩ := h t (List.mem_iff_getElem?.mpr ⟨i, hi⟩)
  have hlt : i < us.length := by by_contra hc; rw [List.getElem?_eq_none (by omega)] at hi; cases hi
  rw [show kd m i = 0 by unfold kd; rw [if_pos (by omega)]]
  exact .leaf c

theorem tg_one_of {m : Nat} {us : List T} (hne : us ≠ []) (hl : us.length ≤ m) (h : ∀ u ∈ us, ∃ c, u = .leaf c) : TG m 1 (.node us) :=
  (LG.tg (D := 0) (lg_leaves (i := 0) (more := False) h (by simpa using hl)) hne (by simpa using hl) False.elim).1

/-- Filling the last sub-graph of the first layer. -/
theorem appendRec_one {m h : Nat} {us : List T} {d : Bytes} {db db' : DB} {x : FSN} {s : UInt64} (hm : db.maxlinks = m) (hi : db.Inv)
    (hl : us.length ≤ m)
    (hr : appendRec h (FSN.over (db.cfg TRaw) us d) db (-1) = .ok ((x, s), db')) :
    ∃ vs cs new d', Adv db cs new db' ∧ x = FSN.over (db.cfg TRaw) (us ++ vs) d' ∧ s = (T.node (us ++ vs)).size ∧ T.chunksL vs = cs ∧
      (∀ v ∈ vs, ∃ c, v = .leaf c) ∧ (us ++ vs).length ≤ m ∧ ((us ++ vs).length = m ∨ ¬db'.More) := by
  cases h with
  | zero => simp [appendRec] at hr
  | succ h =>
    rw [appendRec] at hr
    rw [if_neg (by omega)] at hr
    have hd1 := done_iff db hi
    have hd2 := done_adv db hi
    have hd3 := done_more db hi
    cases hdn : db.done with
    | mk b db1 =>
      rw [hdn] at hd1 hd2 hd3 hr
      simp only at hd1 hd2 hd3
      cases b with
      | true =>
        simp only [Except.ok.injEq, Prod.mk.injEq] at hr
        obtain ⟨⟨rfl, rfl⟩, rfl⟩ := hr
        exact ⟨[], [], [], d, hd2, by simp, by rw [FSN.over_size]; simp, rfl, by simp, by simpa using hl, .inr (by rw [hd3]; exact hd1.mp rfl)⟩
      | false =>
        simp only at hr
        have hm1 : db1.maxlinks = m := by rw [hd2.maxlinks, hm]
        have hcfg : db1.cfg TRaw = db.cfg TRaw := hd2.cfg _
        have hdir : ∃ vs cs new d', ∀ y dep db2, appendDirect (FSN.over (db.cfg TRaw) us d) db1 = .ok ((y, dep), db2) →
            Adv db1 cs new db2 ∧ y = FSN.over (db.cfg TRaw) (us ++ vs) d' ∧ dep = 1 ∧ T.chunksL vs = cs ∧ (∀ v ∈ vs, ∃ c, v = .leaf c) ∧
            (us ++ vs).length ≤ m ∧ ((us ++ vs).length = m ∨ ¬db2.More) := by
          unfold appendDirect
          by_cases hlt : us.length < m
          · have h0 : (depthInfo (FSN.over (db.cfg TRaw) us d) db1.maxlinks).1 = 0 := by
              unfold depthInfo; rw [FSN.over_num, hm1]; simp only; rw [if_pos hlt]
            rw [if_pos h0]
            have hg := fillNodeLayer_spec (FSN.over (db.cfg TRaw) us d) db1 hd2.inv (FSN.over_typ _ _ _)
            cases hres : DB.fillNodeLayer (FSN.over (db.cfg TRaw) us d) db1 with
            | error e => exact ⟨[], [], [], [], by intro y dep db2 hc; cases hc⟩
            | ok q =>
              obtain ⟨fsn1, db2⟩ := q
              rw [hres] at hg
              obtain ⟨ts, cs, new, d1, ha, hf, hc, -, hq, -⟩ := hg
              rw [FSN.over_num, hm1] at hq
              refine ⟨ts, cs, new, d1, ?_⟩
              intro y dep db2' he
              simp only [Except.ok.injEq, Prod.mk.injEq] at he
              obtain ⟨⟨rfl, rfl⟩, rfl⟩ := he
              rw [hcfg, FSN.over_add] at hf
              have := hq.2.1
              refine ⟨ha, hf, rfl, hc, hq.1, by simp; omega, ?_⟩
              rcases hq.2.2.1 with h | h
              · left; simp; omega
              · exact .inr h
          · have h0 : (depthInfo (FSN.over (db.cfg TRaw) us d) db1.maxlinks).1 = 1 := by
              unfold depthInfo; rw [FSN.over_num, hm1]; simp only; rw [if_neg hlt, show us.length - m = 0 by omega]; rfl
            rw [h0, if_neg (by omega)]
            refine ⟨[], [], [], d, ?_⟩
            intro y dep db2' he
            simp only [Except.ok.injEq, Prod.mk.injEq] at he
            obtain ⟨⟨rfl, rfl⟩, rfl⟩ := he
            exact ⟨Adv.refl _ hd2.inv, by simp, rfl, rfl, by simp, by simpa using hl, .inl (by simp; omega)⟩
        obtain ⟨vs, cs, new, d', hdir⟩ := hdir
        cases hap : appendDirect (FSN.over (db.cfg TRaw) us d) db1 with
        | error e => rw [hap] at hr; cases hr
        | ok q =>
          obtain ⟨⟨y, dep⟩, db2⟩ := q
          obtain ⟨ha, rfl, rfl, hc, hv, hlen, hor⟩ := hdir y dep db2 hap
          rw [hap] at hr
          simp only at hr
          rw [if_neg (by omega)] at hr
          unfold appendFillLastChild at hr
          have hm2 : db2.maxlinks = m := by rw [ha.maxlinks, hm1]
          rw [if_pos (by rw [FSN.over_num, hm2]; exact hlen)] at hr
          simp only at hr
          have hz : (-1 - ((if db2.done.1 = true then 1 else 1 + 1 : Nat) : Int)).toNat = 0 := by
            split <;> omega
          rw [hz] at hr
          simp only [boundedGrow, Except.ok.injEq, Prod.mk.injEq] at hr
          obtain ⟨⟨rfl, rfl⟩, rfl⟩ := hr
          have hd4 := done_adv db2 ha.inv
          have hd5 := done_more db2 ha.inv
          refine ⟨vs, _, _, d', (hd2.trans ha).trans hd4, rfl, FSN.over_size _ _ _, by simpa using hc, hv, hlen, ?_⟩
          rw [hd5]; exact hor

/-- Appending to a root that ends inside its first layer of sub-graphs. -/
theorem append_first_same {m fuel h : Nat} (hm0 : 0 < m) {pre us : List T} {db db' : DB} {n : Node} (hm : db.maxlinks = m) (hi : db.Inv)
    (hpl : m ≤ pre.length) (hpu : pre.length + 1 < m + depthRepeat) (hpre : ∀ j t, pre[j]? = some t → TF m (kd m j) t)
    (hul : us.length ≤ m) (hune : us ≠ []) (hu : ∀ u ∈ us, ∃ c, u = .leaf c)
    (hr : append fuel h ((T.node (pre ++ [.node us])).toNode (db.cfg TRaw)) db = .ok (n, db')) :
    ∃ ws, n = (T.node ws).toNode (db.cfg TRaw) ∧ T.chunksL ws = T.chunksL (pre ++ [.node us]) ++ db.pend ∧ LG m 0 ws False := by
  simp only [T.toNode, append, FSN.fromDag_node] at hr
  generalize (addSizes (FSNode.new TFile) ((pre ++ [T.node us]).map T.size)).bytes = d0 at hr
  have hnum : (FSN.over (db.cfg TRaw) (pre ++ [.node us]) d0).numChildren = pre.length + 1 := by rw [FSN.over_num]; simp
  have hinfo : depthInfo (FSN.over (db.cfg TRaw) (pre ++ [.node us]) d0) db.maxlinks = (1, pre.length + 1 - m) := by
    unfold depthInfo
    rw [hnum, hm]
    simp only
    rw [if_neg (by omega)]
    unfold depthRepeat at *
    rw [Nat.div_eq_of_lt (by omega), Nat.mod_eq_of_lt (by omega)]
  rw [hinfo] at hr
  simp only at hr
  rw [if_neg (by omega)] at hr
  unfold appendRest at hr
  cases hfl : appendFillLastChild (appendRec h) (FSN.over (db.cfg TRaw) (pre ++ [.node us]) d0) (1 - 1) (pre.length + 1 - m) db with
  | error e => rw [hfl] at hr; cases hr
  | ok q =>
    obtain ⟨fsn1, db1⟩ := q
    rw [hfl] at hr
    simp only at hr
    have key : ∃ ts cs new d1, Adv db cs new db1 ∧ fsn1 = FSN.over (db.cfg TRaw) ts d1 ∧ T.chunksL ts = T.chunksL (pre ++ [.node us]) ++ cs ∧
        LG m 0 ts db1.More ∧ (db1.More → ts.length = m + depthRepeat) := by
      unfold appendFillLastChild at hfl
      rw [if_neg (by rw [hnum, hm]; omega)] at hfl
      simp only [hnum, Nat.add_sub_cancel] at hfl
      cases hgc : (FSN.over (db.cfg TRaw) (pre ++ [.node us]) d0).getChild pre.length db.canGet with
      | error e => rw [hgc] at hfl; cases hfl
      | ok lc =>
        rw [hgc] at hfl
        simp only at hfl
        have hlc := FSN.over_getChild _ _ _ _ _ hgc
        rw [hlc] at hfl
        cases hre : appendRec h (FSN.over (db.cfg TRaw) us (addSizes (FSNode.new TFile) (us.map T.size)).bytes) db (((1 - 1 : Nat) : Int) - 1) with
        | error e => rw [hre] at hfl; cases hfl
        | ok q =>
          obtain ⟨⟨x, s⟩, db2⟩ := q
          rw [hre] at hfl
          simp only [FSN.over_removeChild] at hfl
          obtain ⟨vs, cs2, new2, d2, ha2, rfl, rfl, hc2, hv2, hl2, hor2⟩ := appendRec_one hm hi hul hre
          simp only [FSN.over_commit] at hfl
          cases hac : (FSN.over (db.cfg TRaw) pre d0).addChild ⟨(T.node (us ++ vs)).toNode (db.cfg TRaw), none⟩ (T.node (us ++ vs)).size db2 with
          | error e => rw [hac] at hfl; cases hfl
          | ok q =>
            obtain ⟨fsn3, db3⟩ := q
            rw [hac] at hfl
            simp only at hfl
            have hb : Adv db2 [] [⟨(T.node (us ++ vs)).toNode (db.cfg TRaw), none⟩] db3 ∧ fsn3 = FSN.over (db.cfg TRaw) (pre ++ [.node (us ++ vs)]) d0 := by
              unfold FSN.addChild at hac
              simp only at hac
              rcases add_spec db2 ⟨(T.node (us ++ vs)).toNode (db.cfg TRaw), none⟩ ha2.inv with ⟨db4, h4, ha4⟩ | ⟨h4, -⟩
              · rw [h4] at hac
                simp only [Except.ok.injEq, Prod.mk.injEq] at hac
                obtain ⟨rfl, rfl⟩ := hac
                refine ⟨ha4, ?_⟩
                simp [FSN.over, T.toLinks_append, T.toLinks, addSizes]
              · rw [h4] at hac; cases hac
            obtain ⟨ha3, rfl⟩ := hb
            rw [if_pos (by omega)] at hfl
            have ha23 := ha2.trans ha3
            have hm3 : db3.maxlinks = m := by rw [ha23.maxlinks, hm]
            have hg := repeatFirst hm0 (depthRepeat - (pre.length + 1 - m)) (pre.length + 1) ⟨by omega, by omega⟩
              (FSN.over (db.cfg TRaw) (pre ++ [.node (us ++ vs)]) d0) db3 hm3 ha3.inv
            rw [show (1 - 1 : Nat) = 0 from rfl] at hfl
            rw [hfl] at hg
            obtain ⟨ws, cs, new, d1, ha, hf, hc, hmo, ⟨hlg, hll, hlor⟩, -⟩ := hg
            rw [ha23.cfg, FSN.over_add] at hf
            have hmore3 : db3.More ↔ db2.More := by
              have hp := ha3.pend
              rw [List.nil_append] at hp
              unfold DB.More
              rw [ha3.srcEnd, hp]
            have hlgpre : LG m 0 (pre ++ [.node (us ++ vs)]) db2.More := by
              have hk : kd m pre.length = 1 := by
                unfold kd depthRepeat at *
                rw [if_neg (by omega), Nat.div_eq_of_lt (by omega)]
              have hlast : LG m pre.length [.node (us ++ vs)] db2.More := by
                have hall : ∀ u ∈ us ++ vs, ∃ c, u = .leaf c := fun u hu' => (List.mem_append.mp hu').elim (hu u) (hv2 u)
                simp only [LG, hk]
                exact ⟨tg_one_of (by simp [hune]) hl2 hall, fun hm' => tf_one (hor2.resolve_right (not_not.mpr hm')) hall⟩
              have hfull : LG m 0 pre True := by
                have : ∀ (l : List T) (i : Nat), (∀ j t, l[j]? = some t → TF m (kd m (i + j)) t) → LG m i l True := by
                  intro l
                  induction l with
                  | nil => intro i _; trivial
                  | cons t l ih =>
                    intro i hall
                    have h1 : TF m (kd m i) t := by simpa using hall 0 t rfl
                    have h2 : LG m (i + 1) l True := ih (i + 1) (fun j x hx => by
                      rw [show i + 1 + j = i + (j + 1) by omega]; exact hall (j + 1) x (by simpa using hx))
                    cases l with
                    | nil => exact ⟨h1.tg hm0, fun _ => h1⟩
                    | cons t' l => exact ⟨h1, h2⟩
                exact this pre 0 (by simpa using hpre)
              exact LG.append hm0 hfull (by simpa using hlast) (.inl trivial) (fun _ => trivial)
            refine ⟨pre ++ [.node (us ++ vs)] ++ ws, _, _, d1, ha23.trans ha, hf, ?_, ?_, ?_⟩
            · simp only [T.chunksL_append, T.chunksL, T.chunks, hc2, hc, List.append_nil, List.append_assoc]
            · have hmm : db1.More → db3.More := by
                intro h1 h2
                apply h1
                have hp := ha.pend
                rw [h2.1] at hp
                exact ⟨(List.append_eq_nil_iff.mp hp.symm).2, by rw [ha.srcEnd]; exact h2.2⟩
              refine LG.append hm0 hlgpre (by simpa using hlg) ?_ (fun h => hmore3.mp (hmm h))
              rw [← hmore3]; exact hmo
            · intro h1
              have := hlor.resolve_right (not_not.mpr h1)
              simp only [List.length_append, List.length_singleton]
              unfold depthRepeat at *
              omega
    obtain ⟨ts, cs, new, d1, ha, rfl, hc, hlg, hfull⟩ := key
    have hd1 := done_iff db1 ha.inv
    have hd2 := done_adv db1 ha.inv
    have hd3 := done_more db1 ha.inv
    cases hdn : db1.done with
    | mk b db2 =>
      rw [hdn] at hr hd1 hd2 hd3
      simp only at hr hd1 hd2 hd3
      have fin : ∀ (i : Nat) fsn3 db3, (db1.More → i = 1) → (¬db1.More → i = 0) → growLoop fuel (i + 1) (FSN.over (db.cfg TRaw) ts d1) db2 = .ok (fsn3, db3) →
          fsn3.commit.map (fun x => (x.1, db3)) = .ok (n, db') →
          ∃ ws, n = (T.node ws).toNode (db.cfg TRaw) ∧ T.chunksL ws = T.chunksL (pre ++ [.node us]) ++ db.pend ∧ LG m 0 ws False := by
        intro i fsn3 db3 hi1 hi0 hgr hcm
        have hg := growLoopFill m hm0 fuel i _ db2 (by rw [hd2.maxlinks, ha.maxlinks, hm]) hd2.inv hgr
        obtain ⟨ws, cs', new', d3, ha', hf, hc', hmo, ⟨hnm, hlg'⟩, -⟩ := hg
        rw [(ha.trans hd2).cfg, FSN.over_add] at hf
        subst hf
        rw [FSN.over_commit] at hcm
        simp only [Except.map, Except.ok.injEq, Prod.mk.injEq] at hcm
        obtain ⟨rfl, rfl⟩ := hcm
        have hp3 : db3.pend = [] := by unfold DB.More at hnm; rw [not_not] at hnm; exact hnm.1
        have hpp := ((ha.trans hd2).trans ha').pend
        rw [hp3] at hpp
        refine ⟨ts ++ ws, rfl, ?_, ?_⟩
        · rw [T.chunksL_append, hc, hc', hpp]; simp
        · refine LG.append hm0 hlg ?_ ?_ False.elim
          · rcases hmo with h | h
            · rw [hd3] at h
              rw [hfull h]
              have := hlg'.mono (b := False) False.elim
              rw [hi1 h] at this
              simpa using this
            · subst h; trivial
          · rw [hd3] at hmo; exact hmo
      cases b with
      | true =>
        have hnm : ¬db1.More := hd1.mp rfl
        simp only [if_pos] at hr
        cases hgr : growLoop fuel 1 (FSN.over (db.cfg TRaw) ts d1) db2 with
        | error e => rw [hgr] at hr; cases hr
        | ok q =>
          obtain ⟨fsn3, db3⟩ := q
          rw [hgr] at hr
          refine fin 0 fsn3 db3 (fun h => absurd h hnm) (fun _ => rfl) hgr ?_
          simp only at hr
          cases hcm : fsn3.commit with
          | error e => rw [hcm] at hr; cases hr
          | ok q => rw [hcm] at hr; simpa [Except.map] using hr
      | false =>
        have hmo : db1.More := by
          by_contra hc
          exact absurd (hd1.mpr hc) (by simp)
        simp only [Bool.false_eq_true, if_false] at hr
        cases hgr : growLoop fuel (1 + 1) (FSN.over (db.cfg TRaw) ts d1) db2 with
        | error e => rw [hgr] at hr; cases hr
        | ok q =>
          obtain ⟨fsn3, db3⟩ := q
          rw [hgr] at hr
          refine fin 1 fsn3 db3 (fun _ => rfl) (fun h => absurd hmo h) hgr ?_
          simp only at hr
          cases hcm : fsn3.commit with
          | error e => rw [hcm] at hr; cases hr
          | ok q => rw [hcm] at hr; simpa [Except.map] using hr

theorem Adv.quiet {db db' : DB} {cs new} (h : Adv db cs new db') (hn : ¬db.More) : ¬db'.More := by
  unfold DB.More at *
  rw [not_not] at *
  have hp := h.pend
  rw [hn.1] at hp
  exact ⟨(List.append_eq_nil_iff.mp hp.symm).2, by rw [h.srcEnd]; exact hn.2⟩

/-- `appendRec` without data. -/
theorem appendRec_nothing {h : Nat} {fsn x : FSN} {db db' : DB} {D : Int} {s : UInt64} (hi : db.Inv) (hn : ¬db.More)
    (hr : appendRec h fsn db D = .ok ((x, s), db')) : x = fsn ∧ s = fsn.fileSize ∧ Adv db [] [] db' := by
  cases h with
  | zero => simp [appendRec] at hr
  | succ h =>
    rw [appendRec] at hr
    split at hr
    · simp only [Except.ok.injEq, Prod.mk.injEq] at hr
      obtain ⟨⟨rfl, rfl⟩, rfl⟩ := hr
      exact ⟨rfl, rfl, Adv.refl _ hi⟩
    · have hd1 := (done_iff db hi).mpr hn
      have hd2 := done_adv db hi
      cases hdn : db.done with
      | mk b db1 =>
        rw [hdn] at hr hd1 hd2
        simp only at hd1
        subst hd1
        simp only [Except.ok.injEq, Prod.mk.injEq] at hr
        obtain ⟨⟨rfl, rfl⟩, rfl⟩ := hr
        exact ⟨rfl, rfl, hd2⟩

/-- Appending nothing. -/
theorem append_nothing {m fuel h : Nat} (hm0 : 0 < m) {ts : List T} {db db' : DB} {n : Node} (hm : db.maxlinks = m) (hi : db.Inv) (hn : ¬db.More)
    (hlg : LG m 0 ts False) (hle : m ≤ ts.length)
    (hr : append fuel h ((T.node ts).toNode (db.cfg TRaw)) db = .ok (n, db')) : n = (T.node ts).toNode (db.cfg TRaw) := by
  simp only [T.toNode, append, FSN.fromDag_node] at hr
  generalize (addSizes (FSNode.new TFile) (ts.map T.size)).bytes = d0 at hr
  have hnum : (FSN.over (db.cfg TRaw) ts d0).numChildren = ts.length := FSN.over_num _ _ _
  have hinfo : ∃ d r, depthInfo (FSN.over (db.cfg TRaw) ts d0) db.maxlinks = (d + 1, r) := by
    unfold depthInfo
    rw [hnum, hm]
    simp only
    rw [if_neg (by omega)]
    exact ⟨_, _, rfl⟩
  obtain ⟨D, r, hinfo⟩ := hinfo
  rw [hinfo] at hr
  simp only at hr
  rw [if_neg (by omega)] at hr
  unfold appendRest at hr
  cases hfl : appendFillLastChild (appendRec h) (FSN.over (db.cfg TRaw) ts d0) (D + 1 - 1) r db with
  | error e => rw [hfl] at hr; cases hr
  | ok q =>
    obtain ⟨fsn1, db1⟩ := q
    rw [hfl] at hr
    simp only at hr
    have key : ∃ cs new d1, Adv db cs new db1 ∧ fsn1 = FSN.over (db.cfg TRaw) ts d1 := by
      unfold appendFillLastChild at hfl
      split at hfl
      · simp only [Except.ok.injEq, Prod.mk.injEq] at hfl
        obtain ⟨rfl, rfl⟩ := hfl
        exact ⟨_, _, _, Adv.refl _ hi, rfl⟩
      · rename_i hgt
        rw [hnum, hm] at hgt
        obtain ⟨pre, last, rfl, h1, h2, -⟩ := hlg.last (by rintro rfl; simp at hgt)
        simp only [Nat.zero_add] at h1 h2
        simp only [List.length_append, List.length_singleton] at hgt hle
        obtain ⟨us, rfl⟩ : ∃ us, last = .node us := by
          rw [show kd m pre.length = (pre.length - m) / depthRepeat + 1 by unfold kd; rw [if_neg (by omega)]] at h2
          cases h2 with
          | node => exact ⟨_, rfl⟩
        simp only [hnum, List.length_append, List.length_singleton, Nat.add_sub_cancel] at hfl
        cases hgc : (FSN.over (db.cfg TRaw) (pre ++ [.node us]) d0).getChild pre.length db.canGet with
        | error e => rw [hgc] at hfl; cases hfl
        | ok lc =>
          rw [hgc] at hfl
          simp only at hfl
          have hlc := FSN.over_getChild _ _ _ _ _ hgc
          rw [hlc] at hfl
          cases hre : appendRec h (FSN.over (db.cfg TRaw) us (addSizes (FSNode.new TFile) (us.map T.size)).bytes) db ((D : Int) - 1) with
          | error e => rw [hre] at hfl; cases hfl
          | ok q =>
            obtain ⟨⟨x, s⟩, db2⟩ := q
            rw [hre] at hfl
            simp only [FSN.over_removeChild] at hfl
            obtain ⟨rfl, rfl, ha2⟩ := appendRec_nothing hi hn hre
            simp only [FSN.over_commit, FSN.over_size] at hfl
            cases hac : (FSN.over (db.cfg TRaw) pre d0).addChild ⟨(T.node us).toNode (db.cfg TRaw), none⟩ (T.node us).size db2 with
            | error e => rw [hac] at hfl; cases hfl
            | ok q =>
              obtain ⟨fsn3, db3⟩ := q
              rw [hac] at hfl
              simp only at hfl
              have hb : Adv db2 [] [⟨(T.node us).toNode (db.cfg TRaw), none⟩] db3 ∧ fsn3 = FSN.over (db.cfg TRaw) (pre ++ [.node us]) d0 := by
                unfold FSN.addChild at hac
                simp only at hac
                rcases add_spec db2 ⟨(T.node us).toNode (db.cfg TRaw), none⟩ ha2.inv with ⟨db4, h4, ha4⟩ | ⟨h4, -⟩
                · rw [h4] at hac
                  simp only [Except.ok.injEq, Prod.mk.injEq] at hac
                  obtain ⟨rfl, rfl⟩ := hac
                  refine ⟨ha4, ?_⟩
                  simp [FSN.over, T.toLinks_append, T.toLinks, addSizes]
                · rw [h4] at hac; cases hac
              obtain ⟨ha3, rfl⟩ := hb
              have ha23 := ha2.trans ha3
              have hq3 := Adv.quiet ha23 hn
              split at hfl
              · have hd1 := (done_iff db3 ha3.inv).mpr hq3
                have hd2 := done_adv db3 ha3.inv
                generalize depthRepeat - r = k at hfl
                cases k with
                | zero =>
                  simp only [repeatLoop, Except.ok.injEq, Prod.mk.injEq] at hfl
                  obtain ⟨rfl, rfl⟩ := hfl
                  exact ⟨_, _, _, ha23, rfl⟩
                | succ k =>
                  rw [repeatLoop] at hfl
                  cases hdn : db3.done with
                  | mk b db4 =>
                    rw [hdn] at hfl hd1 hd2
                    simp only at hd1
                    subst hd1
                    simp only [Except.ok.injEq, Prod.mk.injEq] at hfl
                    obtain ⟨rfl, rfl⟩ := hfl
                    exact ⟨_, _, _, ha23.trans hd2, rfl⟩
              · simp only [Except.ok.injEq, Prod.mk.injEq] at hfl
                obtain ⟨rfl, rfl⟩ := hfl
                exact ⟨_, _, _, ha23, rfl⟩
    obtain ⟨cs, new, d1, ha, rfl⟩ := key
    have hd2 := done_adv db1 ha.inv
    have had := ha.trans hd2
    have hq := Adv.quiet had hn
    have hdep : ∃ i, (if db1.done.1 = true then D + 1 else D + 1 + 1) = i + 1 := by split <;> exact ⟨_, rfl⟩
    obtain ⟨i, hdep⟩ := hdep
    rw [hdep] at hr
    cases hgr : growLoop fuel (i + 1) (FSN.over (db.cfg TRaw) ts d1) db1.done.2 with
    | error e => rw [hgr] at hr; cases hr
    | ok q =>
      obtain ⟨fsn3, db3⟩ := q
      rw [hgr] at hr
      simp only at hr
      obtain ⟨ws, cs', new', d3, ha', hf, hc', hmo, -⟩ := growLoopFill m hm0 fuel i _ _ (by rw [had.maxlinks, hm]) hd2.inv hgr
      have : ws = [] := hmo.resolve_left hq
      subst this
      rw [had.cfg, FSN.over_add, List.append_nil] at hf
      subst hf
      simp only [FSN.over_commit, Except.ok.injEq, Prod.mk.injEq] at hr
      rw [← hr.1]

/-- A root with at most `m` children has one chunk for each. -/
theorem lg_direct {m : Nat} {ts : List T} (h : LG m 0 ts False) (hl : ts.length ≤ m) : ∀ t ∈ ts, ∃ c, t = .leaf c := by
  by_cases hne : ts = []
  · subst hne; simp
  obtain ⟨us, e, -, -, hu⟩ := tg_one (LG.tg (D := 0) h hne (by simpa using hl) False.elim).1
  cases e
  exact hu

theorem count_leaves : ∀ {l : List T}, (∀ t ∈ l, ∃ c, t = .leaf c) → (T.chunksL l).length = l.length
  | [], _ => rfl
  | t :: l, h => by
    obtain ⟨x, rfl⟩ := h t (by simp)
    simp only [T.chunksL, T.chunks, List.length_append, List.length_cons, List.length_nil]
    rw [count_leaves (fun t ht => h t (by simp [ht]))]; omega

/-- Which files end inside the first layer of sub-graphs. -/
theorem lg_first {m : Nat} {ts : List T} (h : LG m 0 ts False) (h1 : m < (T.chunksL ts).length) (h2 : (T.chunksL ts).length ≤ 4 * m) :
    m < ts.length ∧ ts.length < m + depthRepeat := by
  have hlt : m < ts.length := by
    by_contra hc
    have := count_leaves (lg_direct h (by omega))
    omega
  refine ⟨hlt, ?_⟩
  by_contra hc
  obtain ⟨pre, last, rfl, g1, g2, -⟩ := h.last (by rintro rfl; simp at hlt)
  simp only [Nat.zero_add] at g1 g2
  simp only [List.length_append, List.length_singleton] at hc hlt
  unfold depthRepeat at hc
  have c1 : (T.chunksL (pre.take m)).length = m := by
    have : TF m 1 (.node (pre.take m)) := by
      refine .node 0 _ (by rw [List.length_take]; simp; omega) (fun i t hi => g1 i t ?_)
      rw [List.getElem?_take] at hi
      split at hi
      · exact hi
      · cases hi
    simpa [T.chunks] using this.count
  have c2 : (T.chunksL ((pre.drop m).take 3)).length = 3 * m := by
    rw [chunksL_const (n := m)]
    · rw [List.length_take, List.length_drop, Nat.min_eq_left (by omega)]
    · intro t ht
      obtain ⟨i, hi⟩ := List.mem_iff_getElem?.mp ht
      rw [List.getElem?_take] at hi
      split at hi
      · rename_i hi3
        rw [List.getElem?_drop] at hi
        have := g1 _ t hi
        rw [show kd m (m + i) = 1 by unfold kd depthRepeat; rw [if_neg (by omega)]; omega] at this
        simpa using this.count
      · cases hi
  have c3 := g2.pos
  have c4 : (T.chunksL pre).length = (T.chunksL (pre.take m)).length + ((T.chunksL ((pre.drop m).take 3)).length + (T.chunksL ((pre.drop m).drop 3)).length) := by
    rw [← List.length_append, ← T.chunksL_append, List.take_append_drop, ← List.length_append, ← T.chunksL_append, List.take_append_drop]
  rw [T.chunksL_append, List.length_append] at h2
  simp only [T.chunksL, List.append_nil] at h2
  omega

/-- A sub-graph of the second layer with few chunks looks like one of the first. -/
theorem tg_small {m : Nat} {t : T} (h : TG m 2 t) (hc : t.chunks.length ≤ m) : TG m 1 t := by
  cases h with
  | node _ pre last hl h hlast =>
    have hlt : pre.length < m := by
      by_contra hge
      have c1 : (T.chunksL (pre.take m)).length = m := by
        have : TF m 1 (.node (pre.take m)) := by
          refine .node 0 _ (by rw [List.length_take]; simp; omega) (fun i t hi => h i t ?_)
          rw [List.getElem?_take] at hi
          split at hi
          · exact hi
          · cases hi
        simpa [T.chunks] using this.count
      have c3 := hlast.pos
      have c4 : (T.chunksL pre).length = (T.chunksL (pre.take m)).length + (T.chunksL (pre.drop m)).length := by
        rw [← List.length_append, ← T.chunksL_append, List.take_append_drop]
      simp only [T.chunks] at hc
      rw [T.chunksL_append, List.length_append] at hc
      simp only [T.chunksL, List.append_nil] at hc
      omega
    exact .node 0 pre last (by simpa using hlt) h hlast

/-- The second layer with few chunks looks like the first. -/
theorem lg_small {m : Nat} (hm0 : 0 < m) {ts : List T} (h : LG m (m + depthRepeat) ts False) (hc : (T.chunksL ts).length ≤ m) : LG m m ts False := by
  have k2 : kd m (m + depthRepeat) = 2 := by unfold kd depthRepeat; rw [if_neg (by omega)]; omega
  have k1 : kd m m = 1 := by unfold kd depthRepeat; rw [if_neg (by omega)]; omega
  match ts, h with
  | [], _ => trivial
  | [t], h =>
    simp only [LG, k2] at h
    simp only [LG, k1]
    exact ⟨tg_small h.1 (by simpa [T.chunksL] using hc), False.elim⟩
  | t :: t' :: ts, h =>
    exfalso
    simp only [LG, k2] at h
    have := h.1.count
    simp only [T.chunksL, List.length_append] at hc
    omega

/-- Without sub-graphs below the root, `appendRest` begins with the second layer. -/
theorem appendRest_direct {m fuel h r : Nat} (hm0 : 0 < m) {ts : List T} {d0 : Bytes} {db db' : DB} {n : Node} (hm : db.maxlinks = m) (hi : db.Inv)
    (hl : ts.length = m) (hts : ∀ t ∈ ts, ∃ c, t = .leaf c) (hfit : db.pend.length ≤ m)
    (hr : appendRest fuel h (FSN.over (db.cfg TRaw) ts d0) 1 r db = .ok (n, db')) :
    ∃ us, n = (T.node us).toNode (db.cfg TRaw) ∧ T.chunksL us = T.chunksL ts ++ db.pend ∧ LG m 0 us False := by
  unfold appendRest appendFillLastChild at hr
  rw [if_pos (by rw [FSN.over_num, hm]; omega)] at hr
  simp only at hr
  have hd1 := done_iff db hi
  have hd2 := done_adv db hi
  have hd3 := done_more db hi
  have hdep : ∃ i, (if db.done.1 = true then 1 else 1 + 1) = i + 1 ∧ (db.More → i = 1) := by
    by_cases hdn : db.done.1 = true
    · exact ⟨0, by rw [if_pos hdn], fun h => absurd h (hd1.mp hdn)⟩
    · exact ⟨1, by rw [if_neg hdn], fun _ => rfl⟩
  obtain ⟨i, hdep, hi1⟩ := hdep
  rw [hdep] at hr
  cases hgr : growLoop fuel (i + 1) (FSN.over (db.cfg TRaw) ts d0) db.done.2 with
  | error e => rw [hgr] at hr; cases hr
  | ok q =>
    obtain ⟨fsn3, db3⟩ := q
    rw [hgr] at hr
    simp only at hr
    obtain ⟨ws, cs', new', d3, ha', hf, hc', hmo, ⟨hnm, hlg⟩, -⟩ := growLoopFill m hm0 fuel i _ _ (by rw [hd2.maxlinks, hm]) hd2.inv hgr
    rw [hd2.cfg, FSN.over_add] at hf
    subst hf
    simp only [FSN.over_commit, Except.ok.injEq, Prod.mk.injEq] at hr
    have hp3 : db3.pend = [] := by unfold DB.More at hnm; rw [not_not] at hnm; exact hnm.1
    have hpp := (hd2.trans ha').pend
    rw [hp3, List.append_nil, List.nil_append] at hpp
    refine ⟨ts ++ ws, hr.1.symm, by rw [T.chunksL_append, hc', hpp], ?_⟩
    refine LG.append hm0 (m1 := True) (lg_leaves hts (by omega)) ?_ (.inl trivial) (fun _ => trivial)
    rw [Nat.zero_add, hl]
    rcases hmo with h | h
    · rw [hd3] at h
      rw [hi1 h, Nat.mul_one] at hlg
      exact lg_small hm0 (hlg.mono False.elim) (by rw [hc', ← hpp]; exact hfit)
    · subst h; trivial

/-- Appending to a root that has only leaves. -/
theorem append_direct_same {m fuel h : Nat} (hm0 : 0 < m) {ts : List T} {db db' : DB} {n : Node} (hm : db.maxlinks = m) (hi : db.Inv)
    (hlt : ts.length ≤ m) (hfit : ts.length + db.pend.length ≤ 2 * m) (hts : ∀ t ∈ ts, ∃ c, t = .leaf c)
    (hr : append fuel h ((T.node ts).toNode (db.cfg TRaw)) db = .ok (n, db')) :
    ∃ us, n = (T.node us).toNode (db.cfg TRaw) ∧ T.chunksL us = T.chunksL ts ++ db.pend ∧ LG m 0 us False := by
  simp only [T.toNode, append, FSN.fromDag_node] at hr
  generalize (addSizes (FSNode.new TFile) (ts.map T.size)).bytes = d0 at hr
  have hnum : (FSN.over (db.cfg TRaw) ts d0).numChildren = ts.length := FSN.over_num _ _ _
  split at hr
  · have hg := fillNodeLayer_spec (FSN.over (db.cfg TRaw) ts d0) db hi (FSN.over_typ _ _ _)
    cases hres : DB.fillNodeLayer (FSN.over (db.cfg TRaw) ts d0) db with
    | error e => rw [hres] at hr; cases hr
    | ok q =>
      obtain ⟨fsn1, db1⟩ := q
      rw [hres] at hg hr
      simp only at hr
      obtain ⟨vs, cs, new, d1, ha, hf, hc, -, hq, -⟩ := hg
      rw [hnum, hm] at hq
      rw [FSN.over_add] at hf
      have hq2 := hq.2.1
      have hall : ∀ t ∈ ts ++ vs, ∃ c, t = .leaf c := fun t ht => (List.mem_append.mp ht).elim (hts t) (hq.1 t)
      have hdi := done_iff db1 ha.inv
      have hda := done_adv db1 ha.inv
      have hdm := done_more db1 ha.inv
      cases hdn : db1.done with
      | mk bb db2 =>
        simp only [hdn] at hr
        rw [hdn] at hdi hda hdm
        simp only at hdi hda hdm
        have had := ha.trans hda
        cases bb with
        | true =>
          have hnm : ¬db1.More := hdi.mp rfl
          have hp1 : db1.pend = [] := by unfold DB.More at hnm; rw [not_not] at hnm; exact hnm.1
          simp only [Except.ok.injEq, Prod.mk.injEq] at hr
          refine ⟨ts ++ vs, ?_, ?_, lg_leaves hall (by simp; omega)⟩
          · rw [← hr.1]
            have hcm := fillNodeLayer_commit hres (by rw [hf]; exact FSN.over_typ _ _ _)
            unfold FSN.getDagNode
            rw [hcm, hf]
            rfl
          · rw [T.chunksL_append, hc, ha.pend, hp1, List.append_nil]
        | false =>
          have hmo : db1.More := by
            by_contra hc
            exact absurd (hdi.mpr hc) (by simp)
          simp only at hr
          have hvl := hq.2.2.1.resolve_right (not_not.mpr hmo)
          have hpl := congrArg List.length had.pend
          rw [List.append_nil, List.length_append, ← hc, count_leaves hq.1] at hpl
          rw [hf, ← had.cfg] at hr
          obtain ⟨us, h1, h2, h3⟩ := appendRest_direct hm0 (by rw [had.maxlinks, hm]) hda.inv (by simp; omega) hall (by omega) hr
          refine ⟨us, by rw [h1, had.cfg], ?_, h3⟩
          rw [h2, T.chunksL_append, hc, had.pend]; simp
  · rename_i h0
    have hl : ts.length = m := by
      by_contra hne
      apply h0
      unfold depthInfo; rw [hnum, hm]; simp only; rw [if_pos (by omega)]
    have hinfo : depthInfo (FSN.over (db.cfg TRaw) ts d0) db.maxlinks = (1, 0) := by
      unfold depthInfo; rw [hnum, hm, hl]; simp
    rw [hinfo] at hr
    exact appendRest_direct hm0 hm hi hl hts (by omega) hr

/-- One successful `Append` to a root with left-filled children. -/
theorem append_same {m fuel h : Nat} (hm0 : 0 < m) {ts : List T} {db db' : DB} {n : Node} (hm : db.maxlinks = m) (hi : db.Inv) (hse : db.srcEnd = none)
    (hlg : LG m 0 ts False)
    (hcase : db.pend = [] ∨ ((T.chunksL ts).length ≤ m ∧ (T.chunksL ts).length + db.pend.length ≤ 2 * m) ∨ (m < (T.chunksL ts).length ∧ (T.chunksL ts).length ≤ 4 * m))
    (hr : append fuel h ((T.node ts).toNode (db.cfg TRaw)) db = .ok (n, db')) :
    ∃ us, n = (T.node us).toNode (db.cfg TRaw) ∧ T.chunksL us = T.chunksL ts ++ db.pend ∧ LG m 0 us False := by
  rcases hcase with hp | ⟨h1, h2⟩ | ⟨h1, h2⟩
  · by_cases hlt : ts.length < m
    · exact append_direct_same hm0 hm hi (by omega) (by rw [hp]; simp; omega) (lg_direct hlg (by omega)) hr
    · have := append_nothing hm0 hm hi (by unfold DB.More; rw [not_not]; exact ⟨hp, hse⟩) hlg (by omega) hr
      exact ⟨ts, this, by rw [hp, List.append_nil], hlg⟩
  · have h0 := hlg.links (k := 0) (by simp; omega)
    simp at h0
    have hl := lg_direct hlg h0
    exact append_direct_same hm0 hm hi h0 (by rw [← count_leaves hl]; omega) hl hr
  · obtain ⟨hlt, hlt'⟩ := lg_first hlg h1 h2
    obtain ⟨pre, last, rfl, g1, g2, -⟩ := hlg.last (by rintro rfl; simp at hlt)
    simp only [Nat.zero_add] at g1 g2
    simp only [List.length_append, List.length_singleton] at hlt hlt'
    rw [show kd m pre.length = 1 by unfold kd depthRepeat at *; rw [if_neg (by omega)]; omega] at g2
    obtain ⟨us, rfl, hne, hul, hu⟩ := tg_one g2
    exact append_first_same hm0 hm hi (by omega) (by omega) g1 hul hne hu hr

end Trickle
end Unixfs.Import
